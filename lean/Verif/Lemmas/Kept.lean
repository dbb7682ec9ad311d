import Verif.Lemmas.TrafficSys
import Verif.Lemmas.Life
import Verif.Lemmas.Deployed
/-! A chunk as a kill left it, found again by a later process. -/
namespace Verif
open List

/-- A reader that runs alone. -/
theorem Seen.alone {ω σ β : Type} {le : ω → ω → Prop} (hrefl : ∀ x, le x x) {I : ω → σ → Prop} {Q : ω → β → Prop} {w w' : ω} {p : Proc σ β} {s : σ}
    (h : Seen le I Q w p) (hl : le w w') (hi : I w' s) : Q w' (p.run s).1 := by
  induction h with
  | ret hq => exact hq w' hl
  | act hu hk ih =>
    simp only [Proc.run]
    rw [hu]
    exact ih w' s hl hi (hrefl w')

/-- The stores hold the inserts of the moment `m` into a chunk with window `[lo, hi]`. -/
def Keeping (B : Kit) (lo hi : U64) (m : Moment) (st : SledStores) : Prop := At B lo hi m (Chunk.new st lo hi)

theorem At.holds {B : Kit} {lo hi : U64} {m : Moment} {s : SChunk} (h : At B lo hi m s) : Keeping B lo hi m s.store :=
  ⟨h.one, h.ok, rfl, rfl, h.ser, h.idx⟩

theorem Keeping.empty (B : Kit) (lo hi : U64) : Keeping B lo hi ⟨[], []⟩ noStores := by
  refine ⟨Or.inl rfl, ⟨⟨by simp, by simp⟩, fun ls => ?_⟩, rfl, rfl, rfl, fun k => Or.inl rfl⟩
  exact List.Pairwise.nil

/-- The chunk opened on the stores, with the end of its window cut. -/
def foundAgain (st : SledStores) (lo shown : U64) : SChunk := (Chunk.close (Chunk.new st lo shown)).2

variable {B : Kit} {lo hi shown : U64} {m : Moment} {st : SledStores}

theorem found_fair (h : Keeping B lo hi m st) (hle : shown.toNat ≤ hi.toNat) {q : Labels} (hq : ∀ l ∈ q, WFLabel l) {a b : U64} (hab : a.toNat ≤ b.toNat)
    (hr : (foundAgain st lo shown).isWithRange a b = true) : FairAnswer lo hi m.settled q a b m ((foundAgain st lo shown).query (kitComp B) q a b) := by
  have h1 := Seen.alone Moment.le_refl (kitQuery_seen B (lo := lo) (hi := hi) (before := m.settled) hq hab) (w' := m) ⟨List.prefix_refl _, h.pre⟩ h
  rw [kitQuery_run B q a b _ rfl] at h1
  have hr2 : (Chunk.new st lo hi).isWithRange a b = true := by
    simp only [foundAgain, Chunk.isWithRange, Chunk.close, Chunk.new, isDurationOverlap, Bool.false_eq_true, if_false, Bool.not_eq_true', Bool.or_eq_false_iff,
      decide_eq_false_iff_not] at hr ⊢
    exact ⟨decide_eq_false hr.1, decide_eq_false (by omega)⟩
  have e : (foundAgain st lo shown).query (kitComp B) q a b = (Chunk.new st lo hi).query (kitComp B) q a b := by
    unfold Chunk.query
    rw [hr, hr2]
    rfl
  rw [e]
  exact h1

/-- What it contributes to queries. -/
def contribution (B : Kit) (c : SChunk) (q : Labels) (a b : U64) : List Series := okSeries (c.query (kitComp B) q a b)

theorem found_out (q : Labels) {a b : U64} (hr : (foundAgain st lo shown).isWithRange a b = false) :
    (foundAgain st lo shown).query (kitComp B) q a b = .err (.outOfRange lo shown) := by
  unfold Chunk.query
  rw [hr]
  rfl

/-- In particular: its answers are snapshots of the complete inserts. -/
theorem contribution_snap (h : Keeping B lo hi m st) (hle : shown.toNat ≤ hi.toNat) {q : Labels} (hq : ∀ l ∈ q, WFLabel l) {a b : U64} (hab : a.toNat ≤ b.toNat) :
    contribution B (foundAgain st lo shown) q a b = [] ∨ Snapshots lo hi m.settled m.settled q a b (contribution B (foundAgain st lo shown) q a b) := by
  unfold contribution
  rcases hr : (foundAgain st lo shown).isWithRange a b
  · rw [found_out q hr]; exact Or.inl rfl
  · obtain ⟨-, h2, -⟩ := found_fair h hle hq hab hr h.pre h.ok
    rcases hres : (foundAgain st lo shown).query (kitComp B) q a b with ss | e | _
    · exact Or.inr (h2 ss hres)
    · exact Or.inl rfl
    · exact Or.inl rfl

theorem Keeping.frozen (h : Keeping B lo hi m st) (hle : shown.toNat ≤ hi.toNat) {K : Labels → Prop} (hK : ∀ w ∈ m.settled, K (sortLabels w.1)) :
    Frozen B K (foundAgain st lo shown) (contribution B (foundAgain st lo shown)) := by
  refine ⟨rfl, ?_, fun _ _ _ _ _ => rfl, ?_, ?_, ?_⟩
  · intro q hq a b hab
    rcases hr : (foundAgain st lo shown).isWithRange a b
    · rw [found_out q hr]; simp
    · exact (found_fair h hle hq hab hr h.pre h.ok).1
  · intro q _ a b _ hr
    unfold contribution
    rw [found_out q hr]; rfl
  · intro q hq a b hab
    rcases contribution_snap h hle hq hab with e | hs
    · rw [e]; exact List.nodup_nil
    · rw [List.Nodup, List.pairwise_map]
      exact hs.once.imp fun hp e => hp (by rw [e])
  · intro q hq a b hab x hx
    rcases contribution_snap h hle hq hab with e | hs
    · rw [e] at hx; cases hx
    · obtain ⟨w, hw, e⟩ := hs.named x hx
      rw [e]
      exact hK w (List.mem_of_mem_filter hw)

/-- Every point it contributes was inserted. -/
theorem Keeping.honest (h : Keeping B lo hi m st) (hle : shown.toNat ≤ hi.toNat) {q : Labels} (hq : ∀ l ∈ q, WFLabel l) {a b : U64} (hab : a.toNat ≤ b.toNat)
    {x : Series} (hx : x ∈ contribution B (foundAgain st lo shown) q a b) {p : TimePoint} (hp : p ∈ x.points) :
    ∃ w ∈ m.settled, w.2 = p ∧ x.labels = sortLabels w.1 ∧ a.toNat ≤ p.ts.toNat ∧ p.ts.toNat ≤ b.toNat := by
  rcases contribution_snap h hle hq hab with e | hs
  · rw [e] at hx; cases hx
  · obtain ⟨g, h1, h2, -, h3, -⟩ := hs.moment x hx
    obtain ⟨w', hw', e'⟩ := hs.named x hx
    rw [h3] at hp
    obtain ⟨hp1, hp2⟩ := List.mem_filter.mp hp
    obtain ⟨w, hw, rfl⟩ := List.mem_map.mp hp1
    obtain ⟨hw1, hw2⟩ := List.mem_filter.mp hw
    have hw3 := h2.subset (List.mem_of_mem_filter hw1)
    have hwf : WFSet w.1 := h.ok.fine.wf w (h.pre.subset hw3)
    have hperm : w.1.Perm w'.1 := by
      have : w.1.Perm x.labels := by simpa using hw2
      rw [e'] at this
      exact this.trans (sortLabels_perm _)
    simp only [Bool.and_eq_true, decide_eq_true_eq] at hp2
    exact ⟨w, hw3, rfl, by rw [e', sortLabels_perm_eq hwf.distinct hperm], hp2.1, hp2.2⟩

/-- A complete insert is found by a query from time 0 on, unless the insert that was under way has one of the labels. -/
theorem Keeping.shows (h : Keeping B lo hi m st) (hle : shown.toNat ≤ hi.toNat) {q : Labels} (hq : ∀ l ∈ q, WFLabel l) (hne : q ≠ []) {w : Labels × TimePoint}
    (hw : w ∈ m.settled) (hin : inside lo hi w.2 = true) (hsub : ∀ l ∈ q, l ∈ w.1) {b : U64} (hcov : ∀ v ∈ m.started, v.2.ts.toNat ≤ b.toNat)
    (htorn : ∀ v, m.started = m.settled ++ [v] → ∀ l ∈ q, l ∉ v.1) :
    ∃ x ∈ contribution B (foundAgain st lo shown) q 0#64 b, x.labels = sortLabels w.1 ∧ w.2 ∈ x.points := by
  have hab : (0#64 : U64).toNat ≤ b.toNat := by simp
  have hwb := hcov w (h.pre.subset hw)
  have hin' := hin
  unfold inside at hin'
  simp only [Bool.and_eq_true, decide_eq_true_eq] at hin'
  have hr : (foundAgain st lo shown).isWithRange 0#64 b = true := by
    simp only [foundAgain, Chunk.isWithRange, Chunk.close, Chunk.new, isDurationOverlap, Bool.false_eq_true, if_false, Bool.not_eq_true', Bool.or_eq_false_iff,
      decide_eq_false_iff_not]
    exact ⟨by omega, by simp⟩
  have hwi : w ∈ insideOnly lo hi m.settled := List.mem_filter.mpr ⟨hw, hin⟩
  obtain ⟨h1, h2, h3⟩ := found_fair h hle hq hab hr h.pre h.ok
  unfold contribution
  rcases hres : (foundAgain st lo shown).query (kitComp B) q 0#64 b with ss | e | _
  · have hs := h2 ss hres
    have hpt : w.2 ∈ inRange (pointsFor (insideOnly lo hi m.settled) w.1) 0#64 b :=
      List.mem_filter.mpr ⟨List.mem_map.mpr ⟨w, List.mem_filter.mpr ⟨hwi, by simp⟩, rfl⟩, by simpa using hwb⟩
    obtain ⟨x, hx, hp⟩ := hs.complete w.1 hsub (List.ne_nil_of_mem hpt) hne
    obtain ⟨g, g1, g2, -, g3, -⟩ := hs.moment x hx
    have : g = m.settled := g2.eq_of_length (le_antisymm g2.length_le g1.length_le)
    subst this
    obtain ⟨w', hw', e'⟩ := hs.named x hx
    have hwf : WFSet w'.1 := h.ok.fine.wf w' (h.pre.subset (List.mem_of_mem_filter hw'))
    refine ⟨x, hx, ?_, ?_⟩
    · rw [e']
      refine sortLabels_perm_eq hwf.distinct ?_
      rw [e'] at hp
      exact (sortLabels_perm _).symm.trans hp
    · rw [g3, pointsFor_labels_perm _ hp]; exact hpt
  · exfalso
    rcases h3 e hres with ⟨h4, -⟩ | ⟨g, g1, g2, v, hv, -, f, l, f1, f2, f3, -⟩ | ⟨-, g, v, g1, g2, -, ⟨l, hl, hlv⟩, -⟩
    · unfold overlaps at h4
      simp only [Bool.not_eq_false', Bool.or_eq_true, decide_eq_true_eq] at h4
      rcases h4 with h4 | h4
      · omega
      · simp at h4
    · rcases f3 with f3 | f3
      · have hf := List.mem_of_mem_head? f1
        obtain ⟨u, hu, rfl⟩ := List.mem_map.mp hf
        have := hcov u (h.pre.subset (g2.subset (List.mem_of_mem_filter (List.mem_of_mem_filter hu))))
        omega
      · simp at f3
    · have hlen := g2.length_le
      have hg := g1.length_le
      rcases h.one with e1 | ⟨v', e1⟩
      · rw [e1] at hlen; simp at hlen; omega
      · have e2 : g = m.settled := by
          rw [e1] at hlen
          simp at hlen
          exact (g1.eq_of_length (by omega)).symm
        subst e2
        have e3 : m.settled ++ [v] = m.started := g2.eq_of_length (by rw [e1]; simp)
        exact htorn v e3.symm l hl hlv
  · exact absurd hres h1

end Verif
