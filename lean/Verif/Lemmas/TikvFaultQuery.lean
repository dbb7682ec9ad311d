import Verif.Lemmas.TikvFault
namespace Verif
open List

/-! ### Queries under failures, for any contents of the cluster -/

theorem entriesP_exec (ipre : Str) (q : Labels) (os : List OpOutcome) (kv : KV) :
    ((entriesP ipre q).exec os kv).2 = kv ∧
      ∃ q', q' <+ q ∧ (AllDone os → q' = q) ∧ ((entriesP ipre q).exec os kv).1.1 = q'.filterMap fun l => kv (ipre ++ encodeLabel l) := by
  induction q generalizing os with
  | nil => exact ⟨rfl, [], List.Sublist.refl _, fun _ => rfl, rfl⟩
  | cons l q ih =>
    unfold entriesP
    simp only [KvProg.exec]
    split
    · rcases h : kv (ipre ++ encodeLabel l) with _ | v
      · obtain ⟨h1, q', h2, h4, h3⟩ := ih os.tail
        refine ⟨h1, l :: q', h2.cons_cons _, fun hd => by rw [h4 hd.tail], ?_⟩
        rw [List.filterMap_cons_none (f := fun l => kv (ipre ++ encodeLabel l)) h, ← h3]
      · simp only
        rw [KvProg.exec_bind]
        obtain ⟨h1, q', h2, h4, h3⟩ := ih os.tail
        refine ⟨h1, l :: q', h2.cons_cons _, fun hd => by rw [h4 hd.tail], ?_⟩
        rw [List.filterMap_cons_some (f := fun l => kv (ipre ++ encodeLabel l)) h, ← h3]; rfl
    · rename_i hnd
      obtain ⟨h1, q', h2, -, h3⟩ := ih os.tail
      exact ⟨h1, q', h2.cons _, fun hd => absurd hd.head hnd, h3⟩

theorem labelsOfP_exec (ipre : Str) (is : List U64) (os : List OpOutcome) (kv : KV) :
    ((labelsOfP ipre is).exec os kv).2 = kv ∧ ((labelsOfP ipre is).exec os kv).1.1 <+ is.filterMap (tikvMeta1 ipre kv) := by
  induction is generalizing os with
  | nil => exact ⟨rfl, List.Sublist.refl _⟩
  | cons i is ih =>
    unfold labelsOfP
    simp only [KvProg.exec]
    have hsub : ∀ {l}, l <+ is.filterMap (tikvMeta1 ipre kv) → l <+ (i :: is).filterMap (tikvMeta1 ipre kv) := by
      intro l hl
      rw [List.filterMap_cons]
      split
      · exact hl
      · exact hl.cons _
    split
    · rcases h : kv (ipre ++ encodeId i) with _ | v
      · exact ⟨(ih os.tail).1, hsub (ih os.tail).2⟩
      · simp only
        rcases hd : decodeLabels v with ls | e | _
        · simp only
          rw [KvProg.exec_bind]
          refine ⟨(ih os.tail).1, ?_⟩
          rw [List.filterMap_cons_some (b := (i, ls)) (by unfold tikvMeta1; simp only [h, hd])]
          exact (ih os.tail).2.cons_cons _
        · exact ⟨(ih os.tail).1, hsub (ih os.tail).2⟩
        · exact ⟨(ih os.tail).1, hsub (ih os.tail).2⟩
    · exact ⟨(ih os.tail).1, hsub (ih os.tail).2⟩

theorem readP_exec (B : BinSearch) (spre : Str) (i a b : U64) (os : List OpOutcome) (kv : KV) :
    ((readP B spre i a b).exec os kv).2 = kv ∧
      (((readP B spre i a b).exec os kv).1.1 = .err .tikvErr ∨ ((readP B spre i a b).exec os kv).1.1 = tikvRead B spre kv i a b) := by
  unfold readP tikvRead
  simp only [KvProg.exec]
  split
  · rcases kv (tikvKey spre i) with _ | v
    · exact ⟨rfl, Or.inr rfl⟩
    · exact ⟨rfl, Or.inr rfl⟩
  · exact ⟨rfl, Or.inl rfl⟩

theorem readAllP_exec (B : BinSearch) (ipre spre : Str) (a b : U64) (ms : List (U64 × Labels)) (os : List OpOutcome) (kv : KV) :
    ((readAllP B spre a b ms).exec os kv).2 = kv ∧
      (((readAllP B spre a b ms).exec os kv).1.1 = .err .tikvErr ∨
        ((readAllP B spre a b ms).exec os kv).1.1 = readAll (tikvComp B ipre spre) kv a b ms) := by
  induction ms generalizing os with
  | nil => exact ⟨rfl, Or.inr rfl⟩
  | cons m ms ih =>
    obtain ⟨i, ls⟩ := m
    unfold readAllP readAll
    rw [KvProg.exec_bind]
    obtain ⟨h1, h2⟩ := readP_exec B spre i a b os kv
    rw [h1]
    rcases h2 with h2 | h2
    · rw [h2]; exact ⟨rfl, Or.inl rfl⟩
    · have e : (tikvComp B ipre spre).read kv i a b = tikvRead B spre kv i a b := rfl
      rw [h2, e]
      rcases tikvRead B spre kv i a b with d | e | _
      · simp only
        rw [KvProg.exec_bind]
        obtain ⟨g1, g2⟩ := ih ((readP B spre i a b).exec os kv).1.2
        refine ⟨g1, ?_⟩
        rcases g2 with h | h
        · left; simp only [KvProg.exec, h, Res.bind_err]
        · right; simp only [KvProg.exec, h]; rfl
      · exact ⟨rfl, Or.inr rfl⟩
      · exact ⟨rfl, Or.inr rfl⟩

/-- A query under failures: it changes nothing, and it reports a failure, or panics like the query for some of the labels, or reads a part
of the series that the query for some of the labels finds. -/
theorem queryP_exec (B : BinSearch) (ipre spre : Str) (c : Chunk Unit) (hp : c.poisoned = false) (q : Labels) (a b : U64)
    (hr : c.isWithRange a b = true) (os : List OpOutcome) (kv : KV) :
    ((queryP B ipre spre c q a b).exec os kv).2 = kv ∧
      (((queryP B ipre spre c q a b).exec os kv).1.1 = .err .tikvErr ∨
        ∃ q', q' <+ q ∧ (AllDone os → q' = q) ∧ ((∃ ms ms', tikvMetadata ipre kv q' = .ok ms ∧ ms' <+ ms ∧
            ((queryP B ipre spre c q a b).exec os kv).1.1 = readAll (tikvComp B ipre spre) kv a b ms') ∨
          (tikvMetadata ipre kv q' = .panic ∧ ((queryP B ipre spre c q a b).exec os kv).1.1 = .panic) ∨
          ∃ e, tikvMetadata ipre kv q' = .err e ∧ ((queryP B ipre spre c q a b).exec os kv).1.1 = .err e)) := by
  unfold queryP
  rw [hp, if_pos hr]
  simp only [Bool.false_eq_true, if_false]
  rw [KvProg.exec_bind]
  unfold metadataP
  rw [KvProg.exec_bind]
  unfold containsP
  rw [KvProg.exec_bind]
  obtain ⟨h1, q', h2, h4, h3⟩ := entriesP_exec ipre q os kv
  simp only [h1, h3, KvProg.exec]
  have hm : tikvMetadata ipre kv q' = ((Res.mapM decodeIds (q'.filterMap fun l => kv (ipre ++ encodeLabel l))).bind fun ts => .ok (intersectAll ts)).bind
      fun ids => .ok (ids.filterMap (tikvMeta1 ipre kv)) := rfl
  generalize ((Res.mapM decodeIds (q'.filterMap fun l => kv (ipre ++ encodeLabel l))).bind fun ts => Res.ok (intersectAll ts)) = R at hm ⊢
  rcases R with ids | e | _
  · simp only [Res.bind_ok] at hm
    simp only
    rw [KvProg.exec_bind]
    obtain ⟨g1, g2⟩ := labelsOfP_exec ipre ids ((entriesP ipre q).exec os kv).1.2 kv
    simp only [g1, KvProg.exec]
    obtain ⟨k1, k2⟩ := readAllP_exec B ipre spre a b ((labelsOfP ipre ids).exec ((entriesP ipre q).exec os kv).1.2 kv).1.1
      ((labelsOfP ipre ids).exec ((entriesP ipre q).exec os kv).1.2 kv).1.2 kv
    refine ⟨k1, ?_⟩
    rcases k2 with k2 | k2
    · exact Or.inl k2
    · exact Or.inr ⟨q', h2, h4, Or.inl ⟨_, _, hm, g2, k2⟩⟩
  · exact ⟨rfl, Or.inr ⟨q', h2, h4, Or.inr (Or.inr ⟨e, hm, rfl⟩)⟩⟩
  · exact ⟨rfl, Or.inr ⟨q', h2, h4, Or.inr (Or.inl ⟨hm, rfl⟩)⟩⟩

/-! ### What single operations can do -/

theorem exec_set {α : Type} (k v : Str) (next : Res Unit → KvProg α) (os : List OpOutcome) (kv : KV) :
    ∃ r kv', (kv' = kv ∨ kv' = kv.set k v) ∧ (r = .ok () → kv' = kv.set k v) ∧ r ≠ .panic ∧
      (KvProg.set k v next).exec os kv = (next r).exec os.tail kv' := by
  simp only [KvProg.exec]
  split
  · exact ⟨_, _, Or.inr rfl, fun _ => rfl, by simp, rfl⟩
  · exact ⟨_, _, Or.inl rfl, by simp, by simp, rfl⟩
  · exact ⟨_, _, Or.inr rfl, fun _ => rfl, by simp, rfl⟩

theorem exec_get {α : Type} (k : Str) (next : Res (Option Str) → KvProg α) (os : List OpOutcome) (kv : KV) :
    (KvProg.get k next).exec os kv = (next (.ok (kv k))).exec os.tail kv ∨
      (KvProg.get k next).exec os kv = (next (.err .tikvErr)).exec os.tail kv := by
  simp only [KvProg.exec]
  split
  · exact Or.inl rfl
  · exact Or.inr rfl

/-- A storage write under failures: the cluster is unchanged or as without failures; success means the latter; errors of its own are
reported as without failures. -/
theorem writeP_exec (spre : Str) (i : U64) (p : TimePoint) (os : List OpOutcome) (kv : KV) :
    (((writeP spre i p).exec os kv).2 = kv ∨ ((writeP spre i p).exec os kv).2 = (tikvWrite spre kv i p).2) ∧
      (((writeP spre i p).exec os kv).1.1 = .err .tikvErr ∨
        (((writeP spre i p).exec os kv).1.1 = (tikvWrite spre kv i p).1 ∧ ((writeP spre i p).exec os kv).2 = (tikvWrite spre kv i p).2)) := by
  unfold writeP tikvWrite
  rcases exec_get (tikvKey spre i) _ os kv with h | h
  · rw [h]
    rcases kv (tikvKey spre i) with _ | v
    · simp only [KvProg.exec]
      split
      · exact ⟨Or.inr rfl, Or.inr ⟨rfl, rfl⟩⟩
      · exact ⟨Or.inl rfl, Or.inl rfl⟩
      · exact ⟨Or.inr rfl, Or.inl rfl⟩
    · simp only
      rcases lastPoint v with l | e | _
      · simp only
        split
        · exact ⟨Or.inl rfl, Or.inr ⟨rfl, rfl⟩⟩
        · simp only [KvProg.exec]
          split
          · exact ⟨Or.inr rfl, Or.inr ⟨rfl, rfl⟩⟩
          · exact ⟨Or.inl rfl, Or.inl rfl⟩
          · exact ⟨Or.inr rfl, Or.inl rfl⟩
      · exact ⟨Or.inl rfl, Or.inr ⟨rfl, rfl⟩⟩
      · exact ⟨Or.inl rfl, Or.inr ⟨rfl, rfl⟩⟩
  · rw [h]
    exact ⟨Or.inl rfl, Or.inl rfl⟩

theorem byLabelsP_exec (ipre : Str) (ls : Labels) (os : List OpOutcome) (kv : KV) :
    ((byLabelsP ipre ls).exec os kv).2 = kv ∧
      (((byLabelsP ipre ls).exec os kv).1.1 = .err .tikvErr ∨ ((byLabelsP ipre ls).exec os kv).1.1 = tikvByLabels ipre kv ls) := by
  unfold byLabelsP tikvByLabels
  rcases exec_get (ipre ++ encodeLabels ls true) _ os kv with h | h
  · rw [h]
    rcases kv (ipre ++ encodeLabels ls true) with _ | v
    · exact ⟨rfl, Or.inr rfl⟩
    · exact ⟨rfl, Or.inr rfl⟩
  · rw [h]
    exact ⟨rfl, Or.inl rfl⟩

/-- `create_index` never reports anything. -/
theorem createP_exec_result (ipre : Str) (ls : Labels) (i : U64) (os : List OpOutcome) (kv : KV) :
    ((createP ipre ls i).exec os kv).1.1 = .ok () := by
  unfold createP
  obtain ⟨r, kv1, -, -, -, h⟩ := exec_set (ipre ++ encodeId i) (encodeLabels ls false)
    (fun _ => .set (ipre ++ encodeLabels ls true) (toBE i) fun _ => (createLabelsP ipre i ls).bind fun _ => .ret (Res.ok ())) os kv
  rw [h]
  obtain ⟨r, kv1, -, -, -, h⟩ := exec_set (ipre ++ encodeLabels ls true) (toBE i)
    (fun _ => (createLabelsP ipre i ls).bind fun _ => .ret (Res.ok ())) os.tail kv1
  rw [h, KvProg.exec_bind]; rfl

/-! ### What index creation can do -/

/-- A reverse entry is left alone or extended by `i`. -/
def Extended (i : U64) (o o' : Option Str) : Prop := o' = o ∨ o' = some (o.getD [] ++ toBE i)

theorem createLabelsP_exec (ipre : Str) (i : U64) (ls : Labels) (hnd : (ls.map fun l => ipre ++ encodeLabel l).Nodup)
    (os : List OpOutcome) (kv : KV) :
    (∀ l ∈ ls, Extended i (kv (ipre ++ encodeLabel l)) (((createLabelsP ipre i ls).exec os kv).2 (ipre ++ encodeLabel l))) ∧
      ∀ k, (∀ l ∈ ls, k ≠ ipre ++ encodeLabel l) → ((createLabelsP ipre i ls).exec os kv).2 k = kv k := by
  induction ls generalizing os kv with
  | nil => exact ⟨by simp, fun _ _ => rfl⟩
  | cons l ls ih =>
    rw [List.map_cons, List.nodup_cons] at hnd
    have hne : ∀ m ∈ ls, ipre ++ encodeLabel l ≠ ipre ++ encodeLabel m :=
      fun m hm e => hnd.1 (List.mem_map.mpr ⟨m, hm, e.symm⟩)
    have key : ∀ (kv1 : KV) (os1 : List OpOutcome), (∀ k, k ≠ ipre ++ encodeLabel l → kv1 k = kv k) →
        Extended i (kv (ipre ++ encodeLabel l)) (kv1 (ipre ++ encodeLabel l)) →
        (∀ m ∈ l :: ls, Extended i (kv (ipre ++ encodeLabel m)) (((createLabelsP ipre i ls).exec os1 kv1).2 (ipre ++ encodeLabel m))) ∧
          ∀ k, (∀ m ∈ l :: ls, k ≠ ipre ++ encodeLabel m) → ((createLabelsP ipre i ls).exec os1 kv1).2 k = kv k := by
      intro kv1 os1 h1 h2
      obtain ⟨i1, i2⟩ := ih hnd.2 os1 kv1
      refine ⟨?_, ?_⟩
      · intro m hm
        rcases List.mem_cons.mp hm with rfl | hm
        · rw [i2 _ hne]; exact h2
        · have := i1 m hm
          rwa [h1 _ (hne m hm).symm] at this
      · intro k hk
        rw [i2 k fun m hm => hk m (by simp [hm]), h1 k (hk l (by simp))]
    unfold createLabelsP
    rcases exec_get (ipre ++ encodeLabel l) _ os kv with h | h
    · rw [h]
      rcases hv : kv (ipre ++ encodeLabel l) with _ | v
      · simp only
        obtain ⟨r, kv1, hkv, -, -, h⟩ := exec_set (ipre ++ encodeLabel l) (toBE i) (fun _ => createLabelsP ipre i ls) os.tail kv
        rw [h]
        have := key kv1 os.tail.tail ?_ ?_
        · exact this
        · intro k hk
          rcases hkv with rfl | rfl
          · rfl
          · exact KV.set_other _ _ hk
        · rcases hkv with rfl | rfl
          · exact Or.inl rfl
          · right; rw [KV.set_same, hv]; rfl
      · simp only
        obtain ⟨r, kv1, hkv, -, -, h⟩ := exec_set (ipre ++ encodeLabel l) (v ++ toBE i) (fun _ => createLabelsP ipre i ls) os.tail kv
        rw [h]
        have := key kv1 os.tail.tail ?_ ?_
        · exact this
        · intro k hk
          rcases hkv with rfl | rfl
          · rfl
          · exact KV.set_other _ _ hk
        · rcases hkv with rfl | rfl
          · exact Or.inl rfl
          · right; rw [KV.set_same, hv]; rfl
    · rw [h]
      exact key kv os.tail (fun _ _ => rfl) (Or.inl rfl)

/-- Effect of `create_index` under failures, entry by entry. -/
structure CreateEffect (ipre : Str) (ls : Labels) (i : U64) (kv kv' : KV) : Prop where
  set : kv' (ipre ++ encodeLabels ls true) = kv (ipre ++ encodeLabels ls true) ∨ kv' (ipre ++ encodeLabels ls true) = some (toBE i)
  metad : kv' (ipre ++ encodeId i) = kv (ipre ++ encodeId i) ∨ kv' (ipre ++ encodeId i) = some (encodeLabels ls false)
  rev : ∀ l ∈ ls, Extended i (kv (ipre ++ encodeLabel l)) (kv' (ipre ++ encodeLabel l))
  other : ∀ k, k ≠ ipre ++ encodeLabels ls true → k ≠ ipre ++ encodeId i → (∀ l ∈ ls, k ≠ ipre ++ encodeLabel l) → kv' k = kv k

theorem createP_exec {ls : Labels} (hw : WFSet ls) (ipre : Str) (i : U64) (os : List OpOutcome) (kv : KV) :
    CreateEffect ipre ls i kv ((createP ipre ls i).exec os kv).2 := by
  unfold createP
  obtain ⟨r1, kv1, hkv1, -, -, h1⟩ := exec_set (ipre ++ encodeId i) (encodeLabels ls false)
    (fun _ => .set (ipre ++ encodeLabels ls true) (toBE i) fun _ => (createLabelsP ipre i ls).bind fun _ => .ret (Res.ok ())) os kv
  obtain ⟨r2, kv2, hkv2, -, -, h2⟩ := exec_set (ipre ++ encodeLabels ls true) (toBE i)
    (fun _ => (createLabelsP ipre i ls).bind fun _ => KvProg.ret (Res.ok ())) os.tail kv1
  rw [h1, h2, KvProg.exec_bind]
  simp only [KvProg.exec]
  obtain ⟨e1, e2⟩ := createLabelsP_exec ipre i ls (labelKeys_nodup hw ipre) os.tail.tail kv2
  have a1 : ∀ l ∈ ls, ipre ++ encodeLabels ls true ≠ ipre ++ encodeLabel l := fun l hl e => hw.key_ne_label (hw.wf l hl) (pre_inj.mp e)
  have a2 : ∀ l ∈ ls, ipre ++ encodeId i ≠ ipre ++ encodeLabel l := fun l _ e => encodeId_ne_label i l (pre_inj.mp e)
  have a3 : ipre ++ encodeId i ≠ ipre ++ encodeLabels ls true := fun e => encodeId_ne_labels i ls (pre_inj.mp e)
  have b1 : ∀ k, k ≠ ipre ++ encodeId i → kv1 k = kv k := by
    intro k hk
    rcases hkv1 with rfl | rfl
    · rfl
    · exact KV.set_other _ _ hk
  have b2 : ∀ k, k ≠ ipre ++ encodeLabels ls true → kv2 k = kv1 k := by
    intro k hk
    rcases hkv2 with rfl | rfl
    · rfl
    · exact KV.set_other _ _ hk
  refine ⟨?_, ?_, ?_, ?_⟩
  · rw [e2 _ a1]
    rcases hkv2 with rfl | rfl
    · exact Or.inl (b1 _ a3.symm)
    · right; exact KV.set_same _ _ _
  · rw [e2 _ a2, b2 _ a3]
    rcases hkv1 with rfl | rfl
    · exact Or.inl rfl
    · right; exact KV.set_same _ _ _
  · intro l hl
    have := e1 l hl
    rwa [b2 _ (a1 l hl).symm, b1 _ (a2 l hl).symm] at this
  · intro k k1 k2 k3
    rw [e2 k k3, b2 k k1, b1 k k2]

end Verif
