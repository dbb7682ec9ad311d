import Verif.Lemmas.ServerConcRun
/-! From the results of its database calls to the response of a request. -/
namespace Verif
open List

/-- What a request does. -/
def treeOf (F : Formats) : Call → Calls (Option Response)
  | .write m => writeCalls m
  | .read qs => readCalls F [] qs
  | .badRead => .done (some ⟨500, []⟩)
  | .other => .done (some ⟨404, []⟩)
  | .garbage => .done none

theorem requestCalls_says {sn : Snappy} {rt : PbRt} {P : Paths} (hP : P.read ≠ P.write) {r : Request} {k : Call} (h : Says sn rt.utf8 P r k)
    (hq : k ≠ .read []) (hs : k = .badRead → rt.Strict) : requestCalls (pbFormats sn rt) P r = treeOf (pbFormats sn rt) k := by
  obtain ⟨url, rb⟩ := r
  cases k with
  | write m =>
    obtain ⟨hurl, body, bytes, hbody, hd, hw⟩ := h
    simp only [] at hurl hbody
    subst hurl hbody
    have hd' : (pbFormats sn rt).decompress body = some bytes := hd
    unfold requestCalls
    simp only [hd']
    rw [if_neg (Ne.symm hP), if_pos trivial, C59_write sn rt hw]
    rfl
  | read qs =>
    obtain ⟨hurl, body, bytes, hbody, hd, hw⟩ := h
    simp only [] at hurl hbody
    subst hurl hbody
    have hd' : (pbFormats sn rt).decompress body = some bytes := hd
    unfold requestCalls
    simp only [hd']
    rw [if_pos trivial, C59_read sn rt hw (by rintro rfl; exact hq rfl)]
    rfl
  | badRead =>
    obtain ⟨hurl, body, bytes, hbody, hd, hw⟩ := h
    simp only [] at hurl hbody
    subst hurl hbody
    have hd' : (pbFormats sn rt).decompress body = some bytes := hd
    have hn : (pbFormats sn rt).parseRead bytes = none := by
      rcases h : (pbFormats sn rt).parseRead bytes with _ | ⟨qs, z⟩
      · rfl
      · exact absurd ((C71_parse_partial sn rt (hs rfl) bytes qs).mp ⟨z, h⟩) (hw qs)
    unfold requestCalls
    simp only [hd']
    rw [if_pos trivial, hn]
    rfl
  | other =>
    obtain ⟨h1, h2, body, bytes, hbody, hd⟩ := h
    simp only [] at h1 h2 hbody
    subst hbody
    have hd' : (pbFormats sn rt).decompress body = some bytes := hd
    unfold requestCalls
    simp only [hd']
    rw [if_neg h1, if_neg h2]
    rfl
  | garbage =>
    unfold requestCalls
    cases rb with
    | none => rfl
    | some body =>
      have : (pbFormats sn rt).decompress body = none := h body rfl
      simp only [this]
      rfl

theorem follow_done {α : Type} {a : α} {os : List Out} {p : Calls α} (h : Follow (.done a) os p) : os = [] ∧ p = .done a := by
  cases h; exact ⟨rfl, rfl⟩

theorem follow_write {m : List PSeries} {seg : List Out} {p : Calls (Option Response)} (h : Follow (writeCalls m) seg p) :
    seg.map Out.call ++ p.next.toList <+: (Call.write m).ops := by
  induction m generalizing seg with
  | nil => obtain ⟨rfl, rfl⟩ := follow_done h; simp [Calls.next]
  | cons s ss ih =>
    rw [writeCalls] at h
    cases h with
    | nil => exact ⟨Call.ops (.write ss), rfl⟩
    | @cons _ _ o os _ h1 h2 =>
      have key : os.map Out.call ++ p.next.toList <+: (Call.write ss).ops := by
        rcases o with ⟨ls, ps, r, wlo, whi⟩ | ⟨q, a, b, r⟩ | ⟨wlo, whi⟩
        · rcases r with ⟨⟩ | e | _
          · exact ih h2
          · obtain ⟨rfl, rfl⟩ := follow_done h2; simp [Calls.next]
          · obtain ⟨rfl, rfl⟩ := follow_done h2; simp [Calls.next]
        · cases h1
        · cases h1
      obtain ⟨d, hd⟩ := key
      refine ⟨d, ?_⟩
      show Out.call o :: (os.map Out.call ++ p.next.toList ++ d) = _
      rw [hd, h1]; rfl

theorem follow_read {F : Formats} {qs : List PQuery} {acc : List (List PSeries)} {seg : List Out} {p : Calls (Option Response)}
    (h : Follow (readCalls F acc qs) seg p) : seg.map Out.call ++ p.next.toList <+: (Call.read qs).ops := by
  induction qs generalizing seg acc with
  | nil => obtain ⟨rfl, rfl⟩ := follow_done h; simp [Calls.next]
  | cons s ss ih =>
    rw [readCalls] at h
    cases h with
    | nil => exact ⟨Call.ops (.read ss), rfl⟩
    | @cons _ _ o os _ h1 h2 =>
      have key : os.map Out.call ++ p.next.toList <+: (Call.read ss).ops := by
        rcases o with ⟨ls, ps, r, wlo, whi⟩ | ⟨q, a, b, r⟩ | ⟨wlo, whi⟩
        · cases h1
        · rcases r with v | e | _
          · exact ih h2
          · exact ih h2
          · obtain ⟨rfl, rfl⟩ := follow_done h2; simp [Calls.next]
        · cases h1
      obtain ⟨d, hd⟩ := key
      refine ⟨d, ?_⟩
      show Out.call o :: (os.map Out.call ++ p.next.toList ++ d) = _
      rw [hd, h1]; rfl

theorem follow_ops {F : Formats} {k : Call} {seg : List Out} {p : Calls (Option Response)} (h : Follow (treeOf F k) seg p) :
    seg.map Out.call ++ p.next.toList <+: k.ops := by
  cases k with
  | write m => exact follow_write h
  | read qs => exact follow_read h
  | badRead => obtain ⟨rfl, rfl⟩ := follow_done h; simp [Calls.next]
  | other => obtain ⟨rfl, rfl⟩ := follow_done h; simp [Calls.next]
  | garbage => obtain ⟨rfl, rfl⟩ := follow_done h; simp [Calls.next]

theorem refuses_iff {G : SeqDb} {s : PSeries} : G.refuses s ↔
    ∃ p ∈ s.samples.map Sample.point, p.ts ≠ 0#64 ∧ G.cur.lo.toNat ≤ p.ts.toNat ∧ p.ts.toNat ≤ G.cur.hi.toNat ∧ (p.ts = G.cur.lo ∨ p.ts = G.cur.hi) := by
  unfold SeqDb.refuses
  constructor
  · rintro ⟨x, hx, h1 | h1, h2, h3⟩
    · exact ⟨_, List.mem_map_of_mem hx, h2, by rw [h1], by rw [h1]; exact h3, Or.inl h1⟩
    · exact ⟨_, List.mem_map_of_mem hx, h2, by rw [h1]; exact h3, by rw [h1], Or.inr h1⟩
  · rintro ⟨p, hp, h1, h2, h3, h4⟩
    obtain ⟨x, hx, rfl⟩ := List.mem_map.mp hp
    exact ⟨x, hx, h4, h1, by omega⟩

theorem handled_write (sn : Snappy) (rt : PbRt) {past : Past} {begun : Nat} {m : List PSeries} {seg : List Out} {x : Option Response} {Gs : List SeqDb}
    (h : Follow (writeCalls m) seg (.done x)) (hf : Forall₂ (fun G o => FitsOn past G begun o) Gs seg) : Handled sn rt begun Gs (.write m) x := by
  induction m generalizing seg Gs with
  | nil =>
    obtain ⟨rfl, e⟩ := follow_done h
    cases hf
    cases e
    exact ⟨le_refl _, by simp, Or.inl ⟨rfl, rfl, by simp⟩⟩
  | cons s ss ih =>
    rw [writeCalls] at h
    cases h with
    | @cons _ _ o os _ h1 h2 =>
      cases hf with
      | @cons G _ Gs _ f1 f2 =>
        rcases o with ⟨ls, ps, r, wlo, whi⟩ | ⟨q, a, b, r⟩ | ⟨wlo, whi⟩
        · simp only [Out.call, DbOp.write.injEq] at h1
          obtain ⟨-, e2⟩ := h1
          have e2 : ps = s.samples.map Sample.point := e2
          obtain ⟨rfl, rfl, f3, f4⟩ := f1
          rw [e2, ← refuses_iff] at f4
          rcases f3 with rfl | rfl
          · have hno : ¬ G.refuses s := fun hr => by have := f4.mpr hr; cases this
            obtain ⟨i1, i2, i3⟩ := ih h2 f2
            refine ⟨by simpa using i1, ?_, ?_⟩
            · intro i G' s' hi hG hs
              cases i with
              | zero => simp only [List.getElem?_cons_zero, Option.some.injEq] at hG hs; subst hG hs; exact hno
              | succ i => exact i2 i G' s' (by simpa using hi) hG hs
            · rcases i3 with ⟨a1, a2, a3⟩ | ⟨a1, i, G', s', a2, a3, a4, a5⟩
              · refine Or.inl ⟨a1, by simp [a2], ?_⟩
                intro i G' s' hG hs
                cases i with
                | zero => simp only [List.getElem?_cons_zero, Option.some.injEq] at hG hs; subst hG hs; exact hno
                | succ i => exact a3 i G' s' hG hs
              · exact Or.inr ⟨a1, i + 1, G', s', by simp [a2], a3, a4, a5⟩
          · obtain ⟨rfl, e⟩ := follow_done h2
            cases f2
            cases e
            refine ⟨by simp, ?_, Or.inr ⟨rfl, 0, G, s, rfl, rfl, rfl, f4.mp rfl⟩⟩
            intro i G' s' hi
            simp at hi
        · cases h1
        · cases h1

theorem merge_labels {fs : List (List Series)} {ds : List Desc} {q : Labels} {a b : U64} {es : List (Labels × List TimePoint)}
    (h : IsMerge (fs ++ ds.map fun d => d.answer sledAccepts q a b) es) {K : Label → Prop} (hK : ∀ d ∈ ds, ∀ w ∈ d.h, ∀ l ∈ w.1, K l)
    (hF : ∀ f ∈ fs, ∀ x ∈ f, ∀ l ∈ x.labels, K l) : ∀ e ∈ es, ∀ l ∈ e.1, K l := by
  rintro ⟨ls, ps⟩ he l hl
  obtain ⟨hne, -⟩ := (h.entries ls ps).mp he
  obtain ⟨y, hy⟩ := List.exists_mem_of_ne_nil _ hne
  unfold seriesWith at hy
  obtain ⟨z, hz, hyz⟩ := List.mem_flatMap.mp hy
  rw [List.mem_filter, decide_eq_true_eq] at hyz
  obtain ⟨hya, rfl⟩ := hyz
  rcases List.mem_append.mp hz with hz | hz
  · exact hF z hz y hya l hl
  obtain ⟨c, hc, rfl⟩ := List.mem_map.mp hz
  obtain ⟨w, hw, e⟩ := answer_from hya
  have hl : l ∈ y.labels := hl
  rw [← e] at hl
  exact hK c hc w hw l ((sortLabels_mem _ _).mp hl)

theorem handled_read {F : Formats} {rt : PbRt} {past : Past} {begun : Nat} {qs : List PQuery} {acc : List (List PSeries)} {seg : List Out} {x : Option Response} {Gs : List SeqDb}
    (h : Follow (readCalls F acc qs) seg (.done x)) (hf : Forall₂ (fun G o => FitsOn past G begun o) Gs seg)
    (hq : ∀ q ∈ qs, (∀ y ∈ q.matchers, WFLabel ⟨y.name, y.value⟩) ∧ (asU64 q.start_).toNat ≤ (asU64 q.end_).toNat)
    (hu : ∀ G ∈ Gs, ∀ d ∈ G.all, ∀ w ∈ d.h, ∀ l ∈ w.1, LabelOk rt.utf8 l)
    (hp : ∀ f ∈ past, ∀ q : Labels, (∀ l ∈ q, WFLabel l) → ∀ a b : U64, a.toNat ≤ b.toNat → ∀ x ∈ f q a b, ∀ l ∈ x.labels, LabelOk rt.utf8 l) :
    ∃ rs : List (List PSeries), x = some ⟨200, F.respond (acc ++ rs)⟩ ∧ Gs.length = qs.length ∧ rs.length = qs.length ∧
      (∀ (i : Nat) (G : SeqDb) (q : PQuery) (r : List PSeries), Gs[i]? = some G → qs[i]? = some q → rs[i]? = some r → G.AnswersOn past begun q (r.map wireSeries)) ∧
      ∀ r ∈ rs, ∀ s ∈ r, SeriesOk rt.utf8 s := by
  induction qs generalizing seg Gs acc with
  | nil =>
    obtain ⟨rfl, e⟩ := follow_done h
    cases hf
    cases e
    exact ⟨[], by simp, rfl, rfl, by simp, by simp⟩
  | cons q qs ih =>
    rw [readCalls] at h
    cases h with
    | @cons _ _ o os _ h1 h2 =>
      cases hf with
      | @cons G _ Gs _ f1 f2 =>
        rcases o with ⟨ls, ps, r, wlo, whi⟩ | ⟨q', a, b, r⟩ | ⟨wlo, whi⟩
        · cases h1
        · simp only [Out.call, DbOp.query.injEq] at h1
          obtain ⟨rfl, rfl, rfl⟩ := h1
          obtain ⟨q1, q2⟩ := hq q (by simp)
          have q3 : ∀ l ∈ q.matchers.map ofMatcher, WFLabel l := by intro l hl; obtain ⟨y, hy, rfl⟩ := List.mem_map.mp hl; exact q1 y hy
          obtain ⟨v, rfl, hm⟩ := f1 q3 q2
          obtain ⟨rs, i1, i2, i3, i4, i5⟩ := ih h2 f2 (fun q' hq' => hq q' (by simp [hq'])) (fun G' hG' => hu G' (by simp [hG']))
          refine ⟨v.map toSeries :: rs, by simpa using i1, by simp [i2], by simp [i3], ?_, ?_⟩
          · intro i G' q' r' hG hq' hr
            cases i with
            | zero =>
              simp only [List.getElem?_cons_zero, Option.some.injEq] at hG hq' hr
              subst hG hq' hr
              refine ⟨v, hm, ?_⟩
              rw [List.map_map]
              refine List.map_congr_left fun e _ => ?_
              show wireSeries (toSeries e) = _
              unfold wireSeries toSeries
              simp only [List.map_map]
              rfl
            | succ i => exact i4 i G' q' r' hG hq' hr
          · intro r' hr' s hs
            rcases List.mem_cons.mp hr' with rfl | hr'
            · obtain ⟨e, he, rfl⟩ := List.mem_map.mp hs
              refine toSeries_ok ?_
              have hG := hu G (by simp)
              have hfs : ∀ g ∈ past.map (fun f => f (q.matchers.map ofMatcher) (asU64 q.start_) (asU64 q.end_)), ∀ x ∈ g, ∀ l ∈ x.labels, LabelOk rt.utf8 l := by
                intro g hg
                obtain ⟨f, hf', rfl⟩ := List.mem_map.mp hg
                exact hp f hf' _ q3 _ _ q2
              rcases hm with hm | ⟨-, hm⟩
              · exact merge_labels hm hG hfs e he
              · refine merge_labels hm ?_ hfs e he
                intro d hd
                rcases List.mem_append.mp hd with hd | hd
                · exact hG d hd
                · rw [List.mem_singleton] at hd; subst hd; exact hG _ (by simp [SeqDb.all])
            · exact i5 r' hr' s hs
        · cases h1

theorem handled (sn : Snappy) (rt : PbRt) {past : Past} {begun : Nat} {k : Call} {seg : List Out} {x : Option Response} {Gs : List SeqDb}
    (h : Follow (treeOf (pbFormats sn rt) k) seg (.done x)) (hf : Forall₂ (fun G o => FitsOn past G begun o) Gs seg)
    (hu : ∀ G ∈ Gs, ∀ d ∈ G.all, ∀ w ∈ d.h, ∀ l ∈ w.1, LabelOk rt.utf8 l)
    (hp : ∀ f ∈ past, ∀ q : Labels, (∀ l ∈ q, WFLabel l) → ∀ a b : U64, a.toNat ≤ b.toNat → ∀ x ∈ f q a b, ∀ l ∈ x.labels, LabelOk rt.utf8 l) :
    HandledOn sn rt past begun Gs k x := by
  cases k with
  | write m => exact handled_write sn rt h hf
  | read qs =>
    intro hq
    obtain ⟨rs, i1, i2, i3, i4, i5⟩ := handled_read h hf hq hu hp
    rw [List.nil_append] at i1
    refine ⟨_, encResponse rs, i1, sn.undo _, rs.map (·.map wireSeries), i2, by simpa using i3, ?_, ?_⟩
    · intro i G q r hG hq hr
      rw [List.getElem?_map] at hr
      obtain ⟨r', hr', rfl⟩ := Option.map_eq_some_iff.mp hr
      exact i4 i G q r' hG hq hr'
    · intro hl
      obtain ⟨out, o1, o2⟩ := C60_response_partial sn rt rs i5 hl
      have : out = encResponse rs := by
        have : sn.decompress (sn.compress (encResponse rs)) = some out := o1
        rw [sn.undo] at this
        exact (Option.some.inj this).symm
      rw [← this]
      exact o2
  | badRead => obtain ⟨rfl, e⟩ := follow_done h; cases hf; cases e; exact ⟨rfl, rfl⟩
  | other => obtain ⟨rfl, e⟩ := follow_done h; cases hf; cases e; exact ⟨rfl, rfl⟩
  | garbage => obtain ⟨rfl, e⟩ := follow_done h; cases hf; cases e; exact ⟨rfl, rfl⟩

/-! ### The database of the order -/

/-- What is in the database was written. -/
theorem SeqDb.run_from {lo hi : U64} {ops : List DbOp} {d : Desc} (hd : d ∈ ((SeqDb.fresh lo hi).run ops).all) {w : Labels × TimePoint} (hw : w ∈ d.h) :
    ∃ ps, DbOp.write w.1 ps ∈ ops ∧ w.2 ∈ ps ∧ inside d.lo d.hi w.2 = true := by
  induction ops using List.reverseRecOn generalizing d with
  | nil => simp [SeqDb.run, SeqDb.all, SeqDb.fresh] at hd; subst hd; simp at hw
  | append_singleton ops op ih =>
    rw [SeqDb.run_snoc] at hd
    have lift : (∃ ps, DbOp.write w.1 ps ∈ ops ∧ w.2 ∈ ps ∧ inside d.lo d.hi w.2 = true) →
        ∃ ps, DbOp.write w.1 ps ∈ ops ++ [op] ∧ w.2 ∈ ps ∧ inside d.lo d.hi w.2 = true := by
      rintro ⟨ps, h1, h2⟩; exact ⟨ps, List.mem_append_left _ h1, h2⟩
    cases op with
    | write ls ps =>
      rcases List.mem_append.mp hd with hd | hd
      · exact lift (ih (List.mem_append_left _ hd) hw)
      · rw [List.mem_singleton] at hd; subst hd
        rcases List.mem_append.mp hw with hw | hw
        · obtain ⟨ps', h1, h2⟩ := ih (d := ((SeqDb.fresh lo hi).run ops).cur) (by simp [SeqDb.all]) hw
          exact ⟨ps', List.mem_append_left _ h1, h2⟩
        · obtain ⟨p, hp, rfl⟩ := List.mem_map.mp hw
          exact ⟨ps, by simp, (List.mem_filter.mp hp).1, (List.mem_filter.mp hp).2⟩
    | query q a b => exact lift (ih hd hw)
    | swap lo' hi' =>
      rcases List.mem_append.mp hd with hd | hd
      · exact lift (ih hd hw)
      · rw [List.mem_singleton] at hd; subst hd; cases hw

theorem SIncr.sublist {l l' : List TimePoint} (h : SIncr l) (hs : l'.Sublist l) : SIncr l' := List.Pairwise.sublist hs h

theorem FineClient.sublist {l l' : List DbOp} (h : FineClient l) (hs : l'.Sublist l) : FineClient l' := by
  refine ⟨fun ls ps hm => h.wf ls ps (hs.subset hm), fun ls => (h.incr ls).sublist ?_, fun op ho => h.noSwap op (hs.subset ho)⟩
  unfold pointsFor progPoints
  exact ((sublist_flatMap hs _).filter _).map _

end Verif
