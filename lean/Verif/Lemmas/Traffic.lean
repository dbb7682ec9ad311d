import Verif.Model.Traffic
import Verif.Spec.Traffic
import Verif.Lemmas.KitCrash
namespace Verif
open List

/-! ### A reader in a world that only grows -/

/-- Every execution of the reader that starts in the world `w`, in which the world only grows and each read happens in a state that fits the
world of that moment, ends with a result that fits the world at its end. -/
inductive Seen {ω σ β : Type} (le : ω → ω → Prop) (I : ω → σ → Prop) (Q : ω → β → Prop) : ω → Proc σ β → Prop
  | ret {w : ω} {b : β} : (∀ w', le w w' → Q w' b) → Seen le I Q w (.ret b)
  | act {w : ω} {u : σ → σ} {k : σ → Proc σ β} : (∀ s, u s = s) → (∀ w' s, le w w' → I w' s → Seen le I Q w' (k s)) → Seen le I Q w (.act u k)

theorem Seen.get {ω σ α β : Type} {le : ω → ω → Prop} {I : ω → σ → Prop} {Q : ω → β → Prop} {w : ω} {f : σ → α} {k : α → Proc σ β}
    (h : ∀ w' s, le w w' → I w' s → Seen le I Q w' (k (f s))) : Seen le I Q w (Proc.get f k) := .act (fun _ => rfl) h

theorem Seen.mono {ω σ β : Type} {le : ω → ω → Prop} (htr : ∀ {x y z}, le x y → le y z → le x z) {I : ω → σ → Prop} {Q : ω → β → Prop}
    {w w' : ω} {p : Proc σ β} (h : Seen le I Q w p) (hl : le w w') : Seen le I Q w' p := by
  cases h with
  | ret hq => exact .ret fun w'' h'' => hq w'' (htr hl h'')
  | act hu hk => exact .act hu fun w'' s h'' hi => hk w'' s (htr hl h'') hi

/-! ### Logs -/

/-- A log of inserts the properties are stated for. -/
structure LogOk (lo hi : U64) (l : Inserts) : Prop where
  fine : Fine l
  incr : ∀ ls, SIncr (pointsFor (insideOnly lo hi l) ls)

theorem insideOnly_prefix {lo hi : U64} {g l : Inserts} (h : g <+: l) : insideOnly lo hi g <+: insideOnly lo hi l := by
  obtain ⟨t, rfl⟩ := h
  exact ⟨insideOnly lo hi t, by unfold insideOnly; rw [List.filter_append]⟩

theorem pointsFor_pre {g l : Inserts} (h : g <+: l) (ls : Labels) : pointsFor g ls <+: pointsFor l ls := by
  obtain ⟨t, rfl⟩ := h
  exact ⟨pointsFor t ls, by unfold pointsFor; rw [List.filter_append, List.map_append]⟩

theorem inRange_pre {g l : List TimePoint} (h : g <+: l) (a b : U64) : inRange g a b <+: inRange l a b := by
  obtain ⟨t, rfl⟩ := h
  exact ⟨inRange t a b, by unfold inRange; rw [List.filter_append]⟩

theorem LogOk.prefix {lo hi : U64} {g l : Inserts} (h : LogOk lo hi l) (hp : g <+: l) : LogOk lo hi g := by
  refine ⟨?_, fun ls => (h.incr ls).sublist (pointsFor_pre (insideOnly_prefix hp) ls).sublist⟩
  obtain ⟨t, rfl⟩ := hp
  exact h.fine.prefix

theorem numbered_pre {g l : Inserts} (h : g <+: l) {x : Labels × U64} (hx : x ∈ numbered g) : x ∈ numbered l := by
  obtain ⟨t, rfl⟩ := h
  induction t using List.reverseRecOn with
  | nil => simpa using hx
  | append_singleton t w ih => rw [← List.append_assoc]; exact numbered_sub _ _ ih

/-- The sequential chunk of a log. -/
def chunkOf (B : Kit) (lo hi : U64) (g : Inserts) : SChunk := (newSled lo hi).insertAll (kitComp B) g

/-- The inserts complete and begun at some moment. -/
structure Moment where
  settled : Inserts
  started : Inserts

/-- Later. -/
def Moment.le (m m' : Moment) : Prop := m.settled <+: m'.settled ∧ m.started <+: m'.started

theorem Moment.le_trans {x y z : Moment} (h : x.le y) (h' : y.le z) : x.le z := ⟨h.1.trans h'.1, h.2.trans h'.2⟩
theorem Moment.le_refl (x : Moment) : x.le x := ⟨List.prefix_refl _, List.prefix_refl _⟩

/-- What the chunk looks like at a moment: the points are those of the complete inserts; each entry of the index is that of the complete
inserts, or with the one under way. -/
structure At (B : Kit) (lo hi : U64) (m : Moment) (s : SChunk) : Prop where
  one : m.started = m.settled ∨ ∃ w, m.started = m.settled ++ [w]
  ok : LogOk lo hi m.started
  start_ : s.start_ = lo
  end_ : s.end_ = hi
  ser : s.store.ser = (chunkOf B lo hi m.settled).store.ser
  idx : ∀ k, s.store.idx k = (chunkOf B lo hi m.settled).store.idx k ∨ s.store.idx k = (chunkOf B lo hi m.started).store.idx k

theorem At.pre {B : Kit} {lo hi : U64} {m : Moment} {s : SChunk} (h : At B lo hi m s) : m.settled <+: m.started := by
  rcases h.one with e | ⟨w, e⟩ <;> rw [e]
  · exact List.prefix_refl _
  · exact List.prefix_append _ _

theorem LogOk.rep {lo hi : U64} {g : Inserts} (h : LogOk lo hi g) (B : Kit) :
    ChunkRep (kitRefines B) lo hi (insideOnly lo hi g) (chunkOf B lo hi g) := kit_rep B lo hi h.fine

/-! ### The loops of a query -/

theorem kitContains_seen (B : Kit) {ω β : Type} {le : ω → ω → Prop} (hrefl : ∀ x, le x x) (htr : ∀ {x y z}, le x y → le y z → le x z)
    {I : ω → SChunk → Prop} {Q : ω → β → Prop} {k : Res (List (List U64)) → Proc SChunk β}
    {G : ω → Label → Option (List U64) → Prop} (hmono : ∀ {w w'} l o, le w w' → G w l o → G w' l o) (ls : Labels)
    (acc : List (List U64)) (w : ω)
    (hg : ∀ w' s, le w w' → I w' s → ∀ l ∈ ls, ∃ o, B.getId s.store.idx l = .ok o ∧ G w' l o)
    (hk : ∀ w' os, le w w' → List.Forall₂ (G w') ls os → Seen le I Q w' (k (.ok (acc ++ os.filterMap id)))) :
    Seen le I Q w (kitContains B k ls acc) := by
  induction ls generalizing acc w with
  | nil => simpa [kitContains] using hk w [] (hrefl w) .nil
  | cons l ls ih =>
    rw [kitContains]
    apply Seen.get
    intro w' s hw hs
    obtain ⟨o, ho, hG⟩ := hg w' s hw hs l (by simp)
    rw [ho]
    rcases o with _ | t
    · exact ih acc w' (fun w'' s h1 hs x hx => hg w'' s (htr hw h1) hs x (by simp [hx])) (fun w'' os h1 hos => by
        simpa using hk w'' (none :: os) (htr hw h1) (.cons (hmono _ _ h1 hG) hos))
    · exact ih (acc ++ [t]) w' (fun w'' s h1 hs x hx => hg w'' s (htr hw h1) hs x (by simp [hx])) (fun w'' os h1 hos => by
        simpa using hk w'' (some t :: os) (htr hw h1) (.cons (hmono _ _ h1 hG) hos))

theorem kitMeta_seen (B : Kit) {ω β : Type} {le : ω → ω → Prop} (hrefl : ∀ x, le x x) (htr : ∀ {x y z}, le x y → le y z → le x z)
    {I : ω → SChunk → Prop} {Q : ω → β → Prop} {k : Res (List (U64 × Labels)) → Proc SChunk β}
    {G : ω → U64 → Option (U64 × Labels) → Prop} (hmono : ∀ {w w'} l o, le w w' → G w l o → G w' l o) (ls : List U64)
    (acc : List (U64 × Labels)) (w : ω)
    (hg : ∀ w' s, le w w' → I w' s → ∀ l ∈ ls, ∃ o, B.meta1 s.store.idx l = .ok o ∧ G w' l o)
    (hk : ∀ w' os, le w w' → List.Forall₂ (G w') ls os → Seen le I Q w' (k (.ok (acc ++ os.filterMap id)))) :
    Seen le I Q w (kitMeta B k ls acc) := by
  induction ls generalizing acc w with
  | nil => simpa [kitMeta] using hk w [] (hrefl w) .nil
  | cons l ls ih =>
    rw [kitMeta]
    apply Seen.get
    intro w' s hw hs
    obtain ⟨o, ho, hG⟩ := hg w' s hw hs l (by simp)
    rw [ho]
    rcases o with _ | t
    · exact ih acc w' (fun w'' s h1 hs x hx => hg w'' s (htr hw h1) hs x (by simp [hx])) (fun w'' os h1 hos => by
        simpa using hk w'' (none :: os) (htr hw h1) (.cons (hmono _ _ h1 hG) hos))
    · exact ih (acc ++ [t]) w' (fun w'' s h1 hs x hx => hg w'' s (htr hw h1) hs x (by simp [hx])) (fun w'' os h1 hos => by
        simpa using hk w'' (some t :: os) (htr hw h1) (.cons (hmono _ _ h1 hG) hos))

theorem kitRead_seen (B : Kit) {ω : Type} {le : ω → ω → Prop} (hrefl : ∀ x, le x x) (htr : ∀ {x y z}, le x y → le y z → le x z)
    {I : ω → SChunk → Prop} {Q : ω → Res (List Series) → Prop} {a b : U64}
    {G : ω → U64 × Labels → List TimePoint → Prop} (hmono : ∀ {w w'} l o, le w w' → G w l o → G w' l o) (ls : List (U64 × Labels))
    (acc : List Series) (w : ω)
    (hg : ∀ w' s, le w w' → I w' s → ∀ x ∈ ls, (∃ d, B.read s.store.ser x.1 a b = .ok d ∧ G w' x d) ∨
      ∃ e, B.read s.store.ser x.1 a b = .err e ∧ ∀ w'', le w' w'' → Q w'' (.err e))
    (hk : ∀ w' ds, le w w' → List.Forall₂ (G w') ls ds → Q w' (.ok (acc ++ (ls.zip ds).filterMap fun y =>
      if y.2.length = 0 then none else some ⟨y.1.1, y.1.2, y.2⟩))) :
    Seen le I Q w (kitRead B a b ls acc) := by
  induction ls generalizing acc w with
  | nil => exact .ret fun w' h => by simpa using hk w' [] h .nil
  | cons x ls ih =>
    obtain ⟨i, L⟩ := x
    rw [kitRead]
    apply Seen.get
    intro w' s hw hs
    rcases hg w' s hw hs (i, L) (by simp) with ⟨d, hd, hG⟩ | ⟨e, he, hq⟩
    · simp only at hd
      rw [hd]
      apply ih _ w' (fun w'' s h1 hs x hx => hg w'' s (htr hw h1) hs x (by simp [hx]))
      intro w'' ds h1 hds
      have := hk w'' (d :: ds) (htr hw h1) (.cons (hmono _ _ h1 hG) hds)
      rw [List.zip_cons_cons, List.filterMap_cons] at this
      by_cases h0 : d.length = 0
      · simp only [h0, if_true] at this ⊢
        exact this
      · simp only [h0, if_false] at this ⊢
        rw [List.append_assoc]
        exact this
    · simp only at he
      rw [he]
      exact .ret hq

end Verif
