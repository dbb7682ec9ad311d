import Verif.Lemmas.SledFault
import Verif.Lemmas.TikvFaultComplete
namespace Verif
open List

/-! ### What single operations can do -/

theorem texec_set {α : Type} (t : TreeName) (k v : Str) (next : Res Unit → TreeProg α) (os : List OpOutcome) (s : SledStores) :
    ∃ r s', (s' = s ∨ s' = s.set t k v) ∧ (r = .ok () → s' = s.set t k v) ∧ (r = .ok () ∨ r = .err .ioErr) ∧
      (TreeProg.set t k v next).exec os s = (next r).exec os.tail s' := by
  simp only [TreeProg.exec]
  split
  · exact ⟨_, _, Or.inr rfl, fun _ => rfl, by simp, rfl⟩
  · exact ⟨_, _, Or.inl rfl, by simp, by simp, rfl⟩
  · exact ⟨_, _, Or.inr rfl, fun _ => rfl, by simp, rfl⟩

/-- `let cur = tree.get(k)?` -/
theorem texec_get {α : Type} (t : TreeName) (k : Str) (f : Option Str → TreeProg (Res α)) (os : List OpOutcome) (s : SledStores) :
    ((TreeProg.get t k .ret).andThen f).exec os s = (f (s.get t k)).exec os.tail s ∨
      ((TreeProg.get t k .ret).andThen f).exec os s = ((.err .ioErr, os.tail), s) := by
  unfold TreeProg.andThen
  rw [TreeProg.exec_bind]
  simp only [TreeProg.exec]
  rcases os.headD .done with _ | _ | _
  · exact Or.inl rfl
  · exact Or.inr rfl
  · exact Or.inr rfl

theorem texec_flush {α : Type} (t : TreeName) (next : TreeProg α) (os : List OpOutcome) (s : SledStores) :
    (TreeProg.flush t fun _ => next).exec os s = next.exec os.tail s := by
  simp only [TreeProg.exec]
  split <;> rfl

/-- A storage write under failures. -/
theorem slWriteP_exec (i : U64) (p : TimePoint) (os : List OpOutcome) (s : SledStores) :
    ((slWriteP i p).exec os s).2.idx = s.idx ∧
    (((slWriteP i p).exec os s).2.ser = s.ser ∨ ((slWriteP i p).exec os s).2.ser = (sledWrite s.ser i p).2) ∧
    (((slWriteP i p).exec os s).1.1 = .ok () ∨ ((slWriteP i p).exec os s).1.1 = .err .ioErr) ∧
    (s.ser (sledKey i) = none → ((slWriteP i p).exec os s).1.1 = .ok () → ((slWriteP i p).exec os s).2.ser = (sledWrite s.ser i p).2) := by
  unfold slWriteP sledWrite
  rcases texec_get .ser (sledKey i) _ os s with h | h
  · rw [h]
    simp only [SledStores.get]
    rcases s.ser (sledKey i) with _ | v
    · simp only
      unfold TreeProg.andThen
      rw [TreeProg.exec_bind]
      simp only [TreeProg.exec]
      rcases os.tail.headD .done with _ | _ | _
      · exact ⟨rfl, Or.inr rfl, Or.inl rfl, fun _ _ => rfl⟩
      · exact ⟨rfl, Or.inl rfl, Or.inr rfl, fun _ h => by cases h⟩
      · exact ⟨rfl, Or.inr rfl, Or.inr rfl, fun _ h => by cases h⟩
    · simp only
      simp only [TreeProg.exec]
      split
      · exact ⟨rfl, Or.inr rfl, Or.inl rfl, by simp⟩
      · exact ⟨rfl, Or.inl rfl, Or.inl rfl, by simp⟩
      · exact ⟨rfl, Or.inr rfl, Or.inl rfl, by simp⟩
  · rw [h]
    exact ⟨rfl, Or.inl rfl, Or.inr rfl, fun _ h => by cases h⟩

theorem fmtId_inj {i j : U64} (h : fmtId i = fmtId j) : i = j := by
  have := parseId_fmtId i
  rw [h, parseId_fmtId] at this
  exact (Res.ok.inj this).symm

/-! ### What index creation can do -/

/-- A reverse entry is left alone or extended by `i`. -/
def SlExtended (i : U64) (o o' : Option Str) : Prop := o' = o ∨ o' = some (sledCodec.app i o)

theorem slCreateLabelsP_exec (i : U64) (ls : Labels) (hnd : (ls.map fun l => encodeLabel l).Nodup) (os : List OpOutcome) (s : SledStores) :
    ((slCreateLabelsP i ls).exec os s).2.ser = s.ser ∧
    (∀ l ∈ ls, SlExtended i (s.idx (encodeLabel l)) (((slCreateLabelsP i ls).exec os s).2.idx (encodeLabel l))) ∧
    (∀ k, (∀ l ∈ ls, k ≠ encodeLabel l) → ((slCreateLabelsP i ls).exec os s).2.idx k = s.idx k) ∧
    (((slCreateLabelsP i ls).exec os s).1.1 = .ok () ∨ ((slCreateLabelsP i ls).exec os s).1.1 = .err .ioErr) := by
  induction ls generalizing os s with
  | nil => exact ⟨rfl, by simp, fun _ _ => rfl, Or.inl rfl⟩
  | cons l ls ih =>
    rw [List.map_cons, List.nodup_cons] at hnd
    have hne : ∀ m ∈ ls, encodeLabel l ≠ encodeLabel m := fun m hm e => hnd.1 (List.mem_map.mpr ⟨m, hm, e.symm⟩)
    unfold slCreateLabelsP
    rcases texec_get .idx (encodeLabel l) _ os s with h | h
    · rw [h]
      obtain ⟨r, s1, hs1, -, -, h'⟩ := texec_set .idx (encodeLabel l) _ (fun _ => .flush .idx fun _ => slCreateLabelsP i ls) os.tail s
      rw [h', texec_flush]
      obtain ⟨i0, i1, i2, i3⟩ := ih hnd.2 os.tail.tail.tail s1
      have hser : s1.ser = s.ser := by rcases hs1 with rfl | rfl <;> rfl
      have hoth : ∀ k, k ≠ encodeLabel l → s1.idx k = s.idx k := by
        intro k hk
        rcases hs1 with rfl | rfl
        · rfl
        · exact KV.set_other _ _ hk
      have hme : SlExtended i (s.idx (encodeLabel l)) (s1.idx (encodeLabel l)) := by
        rcases hs1 with rfl | rfl
        · exact Or.inl rfl
        · right
          refine (KV.set_same _ _ _).trans ?_
          simp only [SledStores.get, sledCodec]
          rcases s.idx (encodeLabel l) with _ | v <;> rfl
      refine ⟨by rw [i0, hser], ?_, ?_, i3⟩
      · intro m hm
        rcases List.mem_cons.mp hm with rfl | hm
        · rw [i2 _ hne]; exact hme
        · have := i1 m hm
          rwa [hoth _ (hne m hm).symm] at this
      · intro k hk
        rw [i2 k fun m hm => hk m (by simp [hm]), hoth k (hk l (by simp))]
    · rw [h]
      exact ⟨rfl, fun m _ => Or.inl rfl, fun _ _ => rfl, Or.inr rfl⟩

/-- Effect of `create_index` under failures, entry by entry. -/
structure SlCreateEffect (ls : Labels) (i : U64) (kv kv' : KV) : Prop where
  set : kv' (encodeLabels ls true) = kv (encodeLabels ls true) ∨ kv' (encodeLabels ls true) = some (fmtId i)
  metad : kv' (encodeId i) = kv (encodeId i) ∨ kv' (encodeId i) = some (encodeLabels ls false)
  rev : ∀ l ∈ ls, SlExtended i (kv (encodeLabel l)) (kv' (encodeLabel l))
  other : ∀ k, k ≠ encodeLabels ls true → k ≠ encodeId i → (∀ l ∈ ls, k ≠ encodeLabel l) → kv' k = kv k

theorem slLabelKeys_nodup {ls : Labels} (hw : WFSet ls) : (ls.map fun l => encodeLabel l).Nodup := by
  have := labelKeys_nodup hw []
  simpa using this

theorem slCreateP_exec {ls : Labels} (hw : WFSet ls) (i : U64) (os : List OpOutcome) (s : SledStores)
    (hn : s.idx (encodeLabels ls true) = none) :
    ((slCreateP ls i).exec os s).2.ser = s.ser ∧ SlCreateEffect ls i s.idx ((slCreateP ls i).exec os s).2.idx ∧
      (((slCreateP ls i).exec os s).1.1 = .ok () ∨ ((slCreateP ls i).exec os s).1.1 = .err .ioErr) := by
  unfold slCreateP
  rcases texec_get .idx (encodeLabels ls true) _ os s with h | h
  · rw [h]
    have hg : s.get .idx (encodeLabels ls true) = none := hn
    simp only [hg, Option.isSome_none, Bool.false_eq_true, if_false]
    obtain ⟨r1, s1, hs1, -, -, h1⟩ := texec_set .idx (encodeLabels ls true) (fmtId i)
      (fun _ => TreeProg.set .idx (encodeId i) (encodeLabels ls false) fun _ => slCreateLabelsP i ls) os.tail s
    obtain ⟨r2, s2, hs2, -, -, h2⟩ := texec_set .idx (encodeId i) (encodeLabels ls false) (fun _ => slCreateLabelsP i ls) os.tail.tail s1
    rw [h1, h2]
    obtain ⟨e0, e1, e2, e3⟩ := slCreateLabelsP_exec i ls (slLabelKeys_nodup hw) os.tail.tail.tail s2
    have a1 : ∀ l ∈ ls, encodeLabels ls true ≠ encodeLabel l := fun l hl e => hw.key_ne_label (hw.wf l hl) e
    have a2 : ∀ l ∈ ls, encodeId i ≠ encodeLabel l := fun l _ e => encodeId_ne_label i l e
    have a3 : encodeId i ≠ encodeLabels ls true := fun e => encodeId_ne_labels i ls e
    have b1 : ∀ k, k ≠ encodeLabels ls true → s1.idx k = s.idx k := by
      intro k hk
      rcases hs1 with rfl | rfl
      · rfl
      · exact KV.set_other _ _ hk
    have b2 : ∀ k, k ≠ encodeId i → s2.idx k = s1.idx k := by
      intro k hk
      rcases hs2 with rfl | rfl
      · rfl
      · exact KV.set_other _ _ hk
    refine ⟨?_, ⟨?_, ?_, ?_, ?_⟩, e3⟩
    · rw [e0]
      rcases hs1 with rfl | rfl <;> rcases hs2 with rfl | rfl <;> rfl
    · rw [e2 _ a1, b2 _ a3.symm]
      rcases hs1 with rfl | rfl
      · exact Or.inl rfl
      · right; exact KV.set_same _ _ _
    · rw [e2 _ a2]
      rcases hs2 with rfl | rfl
      · exact Or.inl (b1 _ a3)
      · right; exact KV.set_same _ _ _
    · intro l hl
      have := e1 l hl
      rwa [b2 _ (a2 l hl).symm, b1 _ (a1 l hl).symm] at this
    · intro k k1 k2 k3
      rw [e2 k k3, b2 k k2, b1 k k1]
  · rw [h]
    exact ⟨rfl, ⟨Or.inl rfl, Or.inl rfl, fun _ _ => Or.inl rfl, fun _ _ _ _ => rfl⟩, Or.inr rfl⟩

/-! ### What is always true of the index -/

/-- Every entry of the index speaks about series that were created. -/
structure SlIndexSound (c : Created) (kv : KV) : Prop where
  byLabels : ∀ ls, WFSet ls → ∀ v, kv (encodeLabels ls true) = some v → ∃ s ∈ c, s.1.Perm ls ∧ v = fmtId s.2
  byId : ∀ i v, kv (encodeId i) = some v → ∃ s ∈ c, s.2 = i ∧ v = encodeLabels s.1 false
  rev : ∀ l, WFLabel l → ∀ v, kv (encodeLabel l) = some v →
    ∃ ids, ids ≠ [] ∧ v = sledCodec.join ids ∧ SAsc ids ∧ ∀ i ∈ ids, ∃ s ∈ c, s.2 = i ∧ l ∈ s.1

theorem SlIndexSound.create {c : Created} {kv kv' : KV} {ls : Labels} {i : U64} (h : SlIndexSound c kv) (hw : WFSet ls)
    (hnew : ∀ s ∈ c, s.2.toNat < i.toNat) (he : SlCreateEffect ls i kv kv') : SlIndexSound (c ++ [(ls, i)]) kv' := by
  have hold : ∀ {P : Labels × U64 → Prop}, (∃ s ∈ c, P s) → ∃ s ∈ c ++ [(ls, i)], P s := by
    rintro P ⟨s, hs, hp⟩; exact ⟨s, by simp [hs], hp⟩
  have hme : (ls, i) ∈ c ++ [(ls, i)] := by simp
  refine ⟨?_, ?_, ?_⟩
  · intro q hq v hv
    by_cases hp : ls.Perm q
    · rw [← encodeLabels_perm hw.distinct hp] at hv
      rcases he.set with h1 | h1
      · rw [h1, encodeLabels_perm hw.distinct hp] at hv
        exact hold (h.byLabels q hq v hv)
      · rw [h1] at hv; cases hv
        exact ⟨_, hme, hp, rfl⟩
    · rw [he.other] at hv
      · exact hold (h.byLabels q hq v hv)
      · intro e
        exact hp (perm_of_sortLabels_eq (encodeLabels_inj true hw.wf hq.wf e.symm))
      · exact fun e => encodeId_ne_labels i q e.symm
      · exact fun l hl e => hq.key_ne_label (hw.wf l hl) e
  · intro j v hv
    by_cases hj : j = i
    · subst hj
      rcases he.metad with h1 | h1
      · rw [h1] at hv
        exact hold (h.byId j v hv)
      · rw [h1] at hv; cases hv
        exact ⟨_, hme, rfl, rfl⟩
    · rw [he.other] at hv
      · exact hold (h.byId j v hv)
      · exact fun e => encodeId_ne_labels j ls e
      · exact fun e => hj (encodeId_inj e)
      · exact fun l hl e => encodeId_ne_label j l e
  · intro l hl v hv
    have hsame : kv (encodeLabel l) = some v → ∃ ids, ids ≠ [] ∧ v = sledCodec.join ids ∧ SAsc ids ∧
        ∀ j ∈ ids, ∃ s ∈ c ++ [(ls, i)], s.2 = j ∧ l ∈ s.1 := by
      intro hv
      obtain ⟨ids, h0, h1, h2, h3⟩ := h.rev l hl v hv
      exact ⟨ids, h0, h1, h2, fun j hj => hold (h3 j hj)⟩
    by_cases hm : l ∈ ls
    · rcases he.rev l hm with h1 | h1
      · rw [h1] at hv; exact hsame hv
      · rw [h1] at hv
        rcases hk : kv (encodeLabel l) with _ | u
        · rw [hk, sledCodec.app_none] at hv
          simp only [Option.some.injEq] at hv
          refine ⟨[i], by simp, hv.symm, by simp [SAsc], ?_⟩
          intro j hj
          rw [List.mem_singleton] at hj; subst hj
          exact ⟨_, hme, rfl, hm⟩
        · obtain ⟨ids, h0, h1, h2, h3⟩ := h.rev l hl u hk
          rw [hk, h1, sledCodec.app_some _ _ h0] at hv
          simp only [Option.some.injEq] at hv
          refine ⟨ids ++ [i], by simp, hv.symm, ?_, ?_⟩
          · unfold SAsc
            rw [List.pairwise_append]
            refine ⟨h2, by simp, ?_⟩
            intro a ha b hb
            rw [List.mem_singleton] at hb; subst hb
            obtain ⟨s, hs, rfl, -⟩ := h3 a ha
            exact hnew s hs
          · intro j hj
            rcases List.mem_append.mp hj with hj | hj
            · exact hold (h3 j hj)
            · rw [List.mem_singleton] at hj; subst hj
              exact ⟨_, hme, rfl, hm⟩
    · rw [he.other] at hv
      · exact hsame hv
      · exact fun e => hw.key_ne_label hl e.symm
      · exact fun e => encodeId_ne_label i l e.symm
      · intro l' hl' e
        rw [← encodeLabel_inj hl (hw.wf l' hl') e] at hl'
        exact hm hl'

/-! ### The insert, case by case -/

/-- What an insert inside the window can do to an unpoisoned chunk. -/
inductive SlInsertCase (ls : Labels) (p : TimePoint) (st st' : Chunk Unit × SledStores) (r : Res Unit) : Prop where
  /-- the lookup of the labels failed -/
  | unknown (hr : r = .err .ioErr) (hs : st' = st)
  /-- a new series; the creation of the index entries failed, or the points were written, or writing them failed -/
  | fresh (hb : st.2.idx (encodeLabels ls true) = none) (hc : SlCreateEffect ls st.1.nextId st.2.idx st'.2.idx)
      (hn : st'.1 = { st.1 with nextId := (idNext st.1.nextId).2 })
      (hw : st'.2.ser = st.2.ser ∨ st'.2.ser = (sledWrite st.2.ser st.1.nextId p).2)
      (hr : r = .err .ioErr ∨ r = .ok ()) (hok : st.2.ser (sledKey st.1.nextId) = none → r = .ok () → st'.2.ser = (sledWrite st.2.ser st.1.nextId p).2)
  /-- an existing series -/
  | known (i : U64) (hb : st.2.idx (encodeLabels ls true) = some (fmtId i)) (hn : st'.1 = st.1) (hi : st'.2.idx = st.2.idx)
      (hw : st'.2.ser = st.2.ser ∨ st'.2.ser = (sledWrite st.2.ser i p).2) (hr : r = .ok ())

theorem slInsertP_cases {c : Created} {st : Chunk Unit × SledStores} (hi : SlIndexSound c st.2.idx)
    (hpo : st.1.poisoned = false) {ls : Labels} (hls : WFSet ls) {p : TimePoint} (hin : st.1.isInRange p.ts = true) (os : List OpOutcome) :
    SlInsertCase ls p st (slFaultyInsert st ⟨ls, p, os⟩).2 (slFaultyInsert st ⟨ls, p, os⟩).1 := by
  obtain ⟨c0, s⟩ := st
  unfold slFaultyInsert slInsertP
  simp only at hpo hin hi
  simp only [hpo, hin, Bool.false_eq_true, if_false, if_true]
  rw [TreeProg.exec_bind]
  have b1 := (slByLabelsP_reports ls).same os s
  have b2 := (slByLabelsP_reports ls).result os s
  rw [b1]
  generalize ((slByLabelsP ls).exec os s).1.2 = os1
  rcases b2 with b2 | b2
  · rw [b2]
    exact .unknown rfl rfl
  · rw [b2]
    unfold sledByLabels
    rcases hk : s.idx (encodeLabels ls true) with _ | v
    · simp only
      rw [TreeProg.exec_bind]
      obtain ⟨c1, c2, c3⟩ := slCreateP_exec hls (idNext c0.nextId).1 os1 s hk
      generalize ((slCreateP ls (idNext c0.nextId).1).exec os1 s) = R at c1 c2 c3
      obtain ⟨⟨r1, os2⟩, s1⟩ := R
      simp only at c1 c2 c3
      rcases c3 with rfl | rfl
      · simp only
        rw [TreeProg.exec_bind]
        obtain ⟨w0, w1, w2, w3⟩ := slWriteP_exec (idNext c0.nextId).1 p os2 s1
        generalize ((slWriteP (idNext c0.nextId).1 p).exec os2 s1) = W at w0 w1 w2 w3
        obtain ⟨⟨r2, os3⟩, s2⟩ := W
        simp only at w0 w1 w2 w3
        rw [c1] at w1 w3
        have hseal : Chunk.seal (r2, ⟨c0.start_, c0.end_, c0.closed, (idNext c0.nextId).2, false, c0.store⟩) = (r2, ⟨c0.start_, c0.end_, c0.closed, (idNext c0.nextId).2, false, c0.store⟩) := by
          rcases w2 with rfl | rfl <;> rfl
        simp only [TreeProg.exec]
        rw [hseal]
        refine .fresh hk ?_ (by simp only [hpo]) w1 w2.symm w3
        show SlCreateEffect ls c0.nextId s.idx s2.idx
        rw [w0]; exact c2
      · simp only [TreeProg.exec]
        exact .fresh hk c2 (by simp only [hpo]) (Or.inl c1) (Or.inl rfl) (fun _ h => by cases h)
    · obtain ⟨s', -, -, rfl⟩ := hi.byLabels ls hls v hk
      simp only [parseId_fmtId, Res.bind_ok]
      rw [TreeProg.exec_bind]
      obtain ⟨w0, w1, w2, w3⟩ := slWriteP_exec s'.2 p os1 s
      generalize ((slWriteP s'.2 p).exec os1 s) = W at w0 w1 w2 w3
      obtain ⟨⟨r2, os3⟩, s2⟩ := W
      simp only at w0 w1 w2 w3
      rcases w2 with rfl | rfl
      · simp only [TreeProg.exec]
        exact .known s'.2 hk rfl w0 w1 rfl
      · simp only [TreeProg.exec]
        exact .known s'.2 hk rfl w0 w1 rfl

/-! ### The invariant -/

/-- A chunk after a history of calls with failures; `c` are the series created, `ser` what is stored under each id, `h` the calls with
timestamps inside the window. -/
structure SlFaultRep (lo hi : U64) (c : Created) (ser : U64 → List TimePoint) (h : Inserts) (st : Chunk Unit × SledStores) : Prop where
  lo_eq : st.1.start_ = lo
  hi_eq : st.1.end_ = hi
  fine : st.1.poisoned = false
  next : st.1.nextId.toNat = c.length + 1
  ids : c.Pairwise fun s t => s.2.toNat < t.2.toNat
  bound : ∀ s ∈ c, s.2.toNat ≤ c.length
  wf : ∀ s ∈ c, WFSet s.1
  len : c.length ≤ h.length
  origin : ∀ s ∈ c, ∃ w ∈ h, w.1 = s.1
  index : SlIndexSound c st.2.idx
  store : StoreInv sledKey ser st.2.ser
  sound : ∀ i, ser i ≠ [] → ∃ s ∈ c, s.2 = i ∧ ser i <+ pointsFor h s.1

theorem SlFaultRep.id_unique {lo hi : U64} {c : Created} {ser : U64 → List TimePoint} {h : Inserts} {st : Chunk Unit × SledStores}
    (R : SlFaultRep lo hi c ser h st) {s t : Labels × U64} (hs : s ∈ c) (ht : t ∈ c) (he : s.2 = t.2) : s = t := by
  have h1 := find_by_id R.ids hs
  have h2 := find_by_id R.ids ht
  rw [he, h2] at h1
  exact (Option.some.inj h1).symm

theorem SlFaultRep.next_empty {lo hi : U64} {c : Created} {ser : U64 → List TimePoint} {h : Inserts} {st : Chunk Unit × SledStores}
    (R : SlFaultRep lo hi c ser h st) : ser st.1.nextId = [] := by
  by_contra hne
  obtain ⟨s, hs, he, -⟩ := R.sound _ hne
  have := R.bound s hs
  rw [he, R.next] at this; omega

theorem slWrite_effect {ser : U64 → List TimePoint} {kv kv' : KV} {i : U64} {p : TimePoint} (h : StoreInv sledKey ser kv)
    (hk : kv' = kv ∨ kv' = (sledWrite kv i p).2) :
    ∃ ser', StoreInv sledKey ser' kv' ∧ (ser' = ser ∨ ser' = upd ser i (ser i ++ [p])) := by
  rcases hk with rfl | rfl
  · exact ⟨ser, h, Or.inl rfl⟩
  · exact ⟨_, (sledWrite_inv h i p).2, Or.inr rfl⟩

/-- How an insert changes what is created and stored. -/
structure SlGrown (c c' : Created) (ser ser' : U64 → List TimePoint) (ls : Labels) (n n' : U64) : Prop where
  mem : ∀ s ∈ c, s ∈ c'
  ser : ∀ i, ser i <+: ser' i
  new : n' ≠ n → c' = c ++ [(ls, n)]

theorem upd_prefix (ser : U64 → List TimePoint) (i : U64) (p : TimePoint) (j : U64) : ser j <+: upd ser i (ser i ++ [p]) j := by
  by_cases e : j = i
  · subst e; simp [upd]
  · simp [upd, e]

/-- Every insert keeps the invariant, whatever fails; inside the window it reports success or the failure. -/
theorem SlFaultRep.insert {lo hi : U64} {c : Created} {ser : U64 → List TimePoint}
    {h : Inserts} {st : Chunk Unit × SledStores} (R : SlFaultRep lo hi c ser h st) (hlen : h.length + 1 < 2 ^ 64 - 1) {ls : Labels} (hls : WFSet ls)
    (p : TimePoint) (os : List OpOutcome) :
    (inside lo hi p = false → slFaultyInsert st ⟨ls, p, os⟩ = (.err (.outOfRange lo hi), st)) ∧
    (inside lo hi p = true → ((slFaultyInsert st ⟨ls, p, os⟩).1 = .ok () ∨ (slFaultyInsert st ⟨ls, p, os⟩).1 = .err .ioErr) ∧
      ∃ c' ser', SlFaultRep lo hi c' ser' (h ++ [(ls, p)]) (slFaultyInsert st ⟨ls, p, os⟩).2 ∧
        SlGrown c c' ser ser' ls st.1.nextId (slFaultyInsert st ⟨ls, p, os⟩).2.1.nextId) := by
  have hin := inside_iff R.lo_eq R.hi_eq p
  refine ⟨?_, ?_⟩
  · intro ho
    unfold slFaultyInsert slInsertP
    simp only [R.fine, Bool.false_eq_true, if_false]
    rw [hin, ho]
    simp only [Bool.false_eq_true, if_false, TreeProg.exec, R.lo_eq, R.hi_eq]
  · intro hi'
    rw [← hin] at hi'
    have hcase := slInsertP_cases R.index R.fine hls hi' os
    generalize (slFaultyInsert st ⟨ls, p, os⟩).2 = st' at hcase
    generalize (slFaultyInsert st ⟨ls, p, os⟩).1 = r at hcase
    have hsub : ∀ {i : U64} (c' : Created), (∀ s ∈ c, s ∈ c') → (∃ s ∈ c, s.2 = i ∧ ser i <+ pointsFor h s.1) →
        ∃ s ∈ c', s.2 = i ∧ ser i <+ pointsFor (h ++ [(ls, p)]) s.1 := by
      rintro i c' hc ⟨s, hs, he, hx⟩
      exact ⟨s, hc s hs, he, hx.trans (pointsFor_mono _ _ _)⟩
    rcases hcase with ⟨rfl, rfl⟩ | ⟨hb, hc, hn, hw, hr, -⟩ | ⟨i, hb, hn, hix, hw, rfl⟩
    · exact ⟨Or.inr rfl, c, ser, { R with
        len := by have := R.len; simp; omega
        origin := fun s hs => by obtain ⟨w, hw, e⟩ := R.origin s hs; exact ⟨w, by simp [hw], e⟩
        sound := fun i hi => hsub c (fun _ h => h) (R.sound i hi) }, ⟨fun _ h => h, fun _ => List.prefix_refl _, fun h => absurd rfl h⟩⟩
    · obtain ⟨c1, kv'⟩ := st'
      simp only at hn hw hc
      subst hn
      have hnb : ∀ s ∈ c, s.2.toNat < st.1.nextId.toNat := fun s hs => by rw [R.next]; have := R.bound s hs; omega
      obtain ⟨ser', w2, w3⟩ := slWrite_effect R.store hw
      refine ⟨hr.symm, c ++ [(ls, st.1.nextId)], ser', ⟨R.lo_eq, R.hi_eq, R.fine, ?_, ?_, ?_, ?_, ?_, ?_, R.index.create hls hnb hc, w2, ?_⟩,
        ⟨fun s hs => by simp [hs], ?_, fun _ => rfl⟩⟩
      · show (st.1.nextId + 1#64).toNat = _
        have := R.len
        rw [BitVec.toNat_add, R.next, Nat.mod_eq_of_lt (by show _ + 1 < _; omega), List.length_append]; rfl
      · rw [List.pairwise_append]
        refine ⟨R.ids, by simp, ?_⟩
        intro s hs t ht
        rw [List.mem_singleton] at ht; subst ht
        exact hnb s hs
      · intro s hs
        rw [List.length_append]
        rcases List.mem_append.mp hs with hs | hs
        · have := R.bound s hs; simp; omega
        · rw [List.mem_singleton] at hs; subst hs; simp [R.next]
      · intro s hs
        rcases List.mem_append.mp hs with hs | hs
        · exact R.wf s hs
        · rw [List.mem_singleton] at hs; subst hs; exact hls
      · have := R.len; simp; omega
      · intro s hs
        rcases List.mem_append.mp hs with hs | hs
        · obtain ⟨w, hw, e⟩ := R.origin s hs; exact ⟨w, by simp [hw], e⟩
        · rw [List.mem_singleton] at hs; subst hs; exact ⟨(ls, p), by simp, rfl⟩
      · intro i hi
        have hmono := hsub (i := i) (c ++ [(ls, st.1.nextId)]) (fun s hs => by simp [hs])
        rcases w3 with rfl | rfl
        · exact hmono (R.sound i hi)
        · by_cases e : i = st.1.nextId
          · subst e
            refine ⟨(ls, st.1.nextId), by simp, rfl, ?_⟩
            rw [pointsFor_append, if_pos (List.Perm.refl _)]
            simp [upd, R.next_empty]
          · simp only [upd, e, if_false] at hi ⊢
            exact hmono (R.sound i hi)
      · intro i
        rcases w3 with rfl | rfl
        · exact List.prefix_refl _
        · exact upd_prefix _ _ _ _
    · obtain ⟨c1, kv'⟩ := st'
      simp only at hn hw hix
      subst hn
      obtain ⟨ser', w2, w3⟩ := slWrite_effect R.store hw
      obtain ⟨s, hs, hperm, hv⟩ := R.index.byLabels ls hls _ hb
      have hid : i = s.2 := fmtId_inj hv
      refine ⟨by simp, c, ser', ⟨R.lo_eq, R.hi_eq, R.fine, R.next, R.ids, R.bound, R.wf, ?_, ?_, by rw [hix]; exact R.index, w2, ?_⟩,
        ⟨fun _ h => h, ?_, fun h => absurd rfl h⟩⟩
      · have := R.len; simp; omega
      · intro t ht; obtain ⟨w, hw, e⟩ := R.origin t ht; exact ⟨w, by simp [hw], e⟩
      · intro j hj
        rcases w3 with rfl | rfl
        · exact hsub c (fun _ h => h) (R.sound j hj)
        · by_cases e : j = i
          · subst e
            refine ⟨s, hs, hid.symm, ?_⟩
            rw [pointsFor_append, if_pos hperm.symm]
            simp only [upd, if_true]
            refine List.Sublist.append ?_ (List.Sublist.refl _)
            by_cases h0 : ser j = []
            · rw [h0]; exact List.nil_sublist _
            · obtain ⟨t, ht, he, hx⟩ := R.sound j h0
              rw [R.id_unique hs ht (by rw [← hid, he])]; exact hx
          · simp only [upd, e, if_false] at hj ⊢
            exact hsub c (fun _ h => h) (R.sound j hj)
      · intro i
        rcases w3 with rfl | rfl
        · exact List.prefix_refl _
        · exact upd_prefix _ _ _ _

end Verif
