import Verif.Model.SledFault
import Verif.Lemmas.TikvFault
namespace Verif
open List

/-! ### Execution -/

theorem TreeProg.exec_bind {α β : Type} (p : TreeProg α) (f : α → TreeProg β) (os : List OpOutcome) (s : SledStores) :
    (p.bind f).exec os s = (f (p.exec os s).1.1).exec (p.exec os s).1.2 (p.exec os s).2 := by
  induction p generalizing os s with
  | ret a => rfl
  | get t k next ih =>
    simp only [TreeProg.bind, TreeProg.exec]
    split <;> exact ih _ _ _
  | set t k v next ih =>
    simp only [TreeProg.bind, TreeProg.exec]
    split <;> exact ih _ _ _
  | flush t next ih =>
    simp only [TreeProg.bind, TreeProg.exec]
    split <;> exact ih _ _ _

/-- Without failures the outcome list does not matter. -/
theorem TreeProg.exec_done {α : Type} (p : TreeProg α) {os : List OpOutcome} (h : AllDone os) (s : SledStores) :
    (p.exec os s).1.1 = (p.exec [] s).1.1 ∧ (p.exec os s).2 = (p.exec [] s).2 ∧ AllDone (p.exec os s).1.2 := by
  induction p generalizing os s with
  | ret a => exact ⟨rfl, rfl, h⟩
  | get t k next ih =>
    simp only [TreeProg.exec, h.head]
    exact ih _ h.tail _
  | set t k v next ih =>
    simp only [TreeProg.exec, h.head]
    exact ih _ h.tail _
  | flush t next ih =>
    simp only [TreeProg.exec, h.head]
    exact ih _ h.tail _

theorem TreeProg.exec_nil_left {α : Type} (p : TreeProg α) (s : SledStores) : (p.exec [] s).1.2 = [] := by
  induction p generalizing s with
  | ret a => rfl
  | get t k next ih => exact ih _ _
  | set t k v next ih => exact ih _ _
  | flush t next ih => exact ih _ _

/-- `p` without failures: result and trees. -/
def TreeProg.run {α : Type} (p : TreeProg α) (s : SledStores) : α × SledStores := ((p.exec [] s).1.1, (p.exec [] s).2)

theorem TreeProg.run_bind {α β : Type} (p : TreeProg α) (f : α → TreeProg β) (s : SledStores) :
    (p.bind f).run s = (f (p.run s).1).run (p.run s).2 := by
  unfold TreeProg.run
  rw [TreeProg.exec_bind, TreeProg.exec_nil_left]

theorem TreeProg.run_ret {α : Type} (a : α) (s : SledStores) : (TreeProg.ret a).run s = (a, s) := rfl
theorem TreeProg.run_get {α : Type} (t : TreeName) (k : Str) (next : Res (Option Str) → TreeProg α) (s : SledStores) :
    (TreeProg.get t k next).run s = (next (.ok (s.get t k))).run s := rfl
theorem TreeProg.run_set {α : Type} (t : TreeName) (k v : Str) (next : Res Unit → TreeProg α) (s : SledStores) :
    (TreeProg.set t k v next).run s = (next (.ok ())).run (s.set t k v) := rfl
theorem TreeProg.run_flush {α : Type} (t : TreeName) (next : Res Unit → TreeProg α) (s : SledStores) :
    (TreeProg.flush t next).run s = (next (.ok ())).run s := rfl

/-! ### Programs that only read and use `?` everywhere -/

/-- `p` computes `f`, or reports a failure. -/
structure Reports {α : Type} (p : TreeProg (Res α)) (f : SledStores → Res α) : Prop where
  same : ∀ os s, (p.exec os s).2 = s
  result : ∀ os s, (p.exec os s).1.1 = .err .ioErr ∨ (p.exec os s).1.1 = f s
  clean : ∀ s, (p.exec [] s).1.1 = f s

theorem Reports.ret {α : Type} (r : Res α) : Reports (.ret r) fun _ => r := ⟨fun _ _ => rfl, fun _ _ => Or.inr rfl, fun _ => rfl⟩

theorem Reports.get (t : TreeName) (k : Str) : Reports (.get t k .ret) fun s => .ok (s.get t k) := by
  refine ⟨fun os s => ?_, fun os s => ?_, fun s => rfl⟩
  · simp only [TreeProg.exec]; split <;> rfl
  · simp only [TreeProg.exec]
    split
    · exact Or.inr rfl
    · exact Or.inl rfl

theorem Reports.andThen {α β : Type} {p : TreeProg (Res α)} {f : SledStores → Res α} {k : α → TreeProg (Res β)} {g : α → SledStores → Res β}
    (hp : Reports p f) (hk : ∀ a, Reports (k a) (g a)) : Reports (p.andThen k) fun s => (f s).bind fun a => g a s := by
  refine ⟨fun os s => ?_, fun os s => ?_, fun s => ?_⟩
  · unfold TreeProg.andThen
    rw [TreeProg.exec_bind, hp.same]
    split
    · exact (hk _).same _ _
    · rfl
    · rfl
  · unfold TreeProg.andThen
    rw [TreeProg.exec_bind, hp.same]
    rcases hp.result os s with h | h
    · rw [h]; exact Or.inl rfl
    · rw [h]
      rcases f s with a | e | _
      · exact (hk a).result _ _
      · exact Or.inr rfl
      · exact Or.inr rfl
  · unfold TreeProg.andThen
    rw [TreeProg.exec_bind, hp.same, hp.clean, TreeProg.exec_nil_left]
    rcases f s with a | e | _
    · exact (hk a).clean _
    · rfl
    · rfl

theorem Reports.congr {α : Type} {p : TreeProg (Res α)} {f g : SledStores → Res α} (h : Reports p f) (e : ∀ s, f s = g s) : Reports p g := by
  have : f = g := funext e
  exact this ▸ h

theorem Reports.each {α β : Type} {f : α → TreeProg (Res β)} {g : α → SledStores → Res β} (h : ∀ a, Reports (f a) (g a)) (as : List α) :
    Reports (TreeProg.each f as) fun s => Res.mapM (fun a => g a s) as := by
  induction as with
  | nil => exact Reports.ret _
  | cons a as ih =>
    unfold TreeProg.each
    refine ((h a).andThen fun b => ih.andThen fun bs => Reports.ret _).congr fun s => ?_
    simp only [Res.mapM]

theorem slReadP_reports (B : BinSearch) (i a b : U64) : Reports (slReadP B i a b) fun s => sledRead B s.ser i a b := by
  unfold slReadP
  refine ((Reports.get .ser (sledKey i)).andThen (g := fun cur _ => match cur with
    | none => .err .notFound
    | some v => (decodeSeries v).bind fun series => readSeries B series a b) ?_).congr ?_
  · intro cur
    rcases cur with _ | v
    · exact Reports.ret _
    · exact Reports.ret _
  · intro s
    simp only [Res.bind_ok, SledStores.get, sledRead]
    rcases s.ser (sledKey i) with _ | v <;> rfl

theorem slGetIdP_reports (l : Label) : Reports (slGetIdP l) fun s => sledGetId s.idx l := by
  unfold slGetIdP
  refine ((Reports.get .idx (encodeLabel l)).andThen (g := fun cur _ => match cur with
    | some v => (Res.mapM parseId (splitComma v)).bind fun ids => .ok (some ids)
    | none => .ok none) ?_).congr ?_
  · intro cur
    rcases cur with _ | v
    · exact Reports.ret _
    · exact Reports.ret _
  · intro s
    simp only [Res.bind_ok, SledStores.get, sledGetId]
    rcases s.idx (encodeLabel l) with _ | v <;> rfl

theorem slMeta1P_reports (i : U64) : Reports (slMeta1P i) fun s => sledMeta1 s.idx i := by
  unfold slMeta1P
  refine ((Reports.get .idx (encodeId i)).andThen (g := fun cur _ => match cur with
    | some v => (decodeLabels v).bind fun ls => .ok (some (i, ls))
    | none => .ok none) ?_).congr ?_
  · intro cur
    rcases cur with _ | v
    · exact Reports.ret _
    · exact Reports.ret _
  · intro s
    simp only [Res.bind_ok, SledStores.get, sledMeta1]
    rcases s.idx (encodeId i) with _ | v <;> rfl

theorem slByLabelsP_reports (ls : Labels) : Reports (slByLabelsP ls) fun s => sledByLabels s.idx ls := by
  unfold slByLabelsP
  refine ((Reports.get .idx (encodeLabels ls true)).andThen (g := fun cur _ => match cur with
    | some v => (parseId v).bind fun i => .ok (some i)
    | none => .ok none) ?_).congr ?_
  · intro cur
    rcases cur with _ | v
    · exact Reports.ret _
    · exact Reports.ret _
  · intro s
    simp only [Res.bind_ok, SledStores.get, sledByLabels]
    rcases s.idx (encodeLabels ls true) with _ | v <;> rfl

theorem slContainsP_reports (ls : Labels) : Reports (slContainsP ls) fun s => sledContains s.idx ls :=
  (Reports.each slGetIdP_reports ls).andThen fun _ => Reports.ret _

theorem slMetadataP_reports (ls : Labels) : Reports (slMetadataP ls) fun s => sledMetadata s.idx ls :=
  (slContainsP_reports ls).andThen fun ids => (Reports.each slMeta1P_reports ids).andThen fun _ => Reports.ret _

theorem slReadAllP_reports (B : BinSearch) (a b : U64) (ms : List (U64 × Labels)) :
    Reports (slReadAllP B a b ms) fun s => readAll (sledComp B) s a b ms := by
  induction ms with
  | nil => exact Reports.ret _
  | cons m ms ih =>
    obtain ⟨i, ls⟩ := m
    exact (slReadP_reports B i a b).andThen fun d => ih.andThen fun ss => Reports.ret _

theorem slQueryP_reports (B : BinSearch) (c : Chunk Unit) (q : Labels) (a b : U64) :
    Reports (slQueryP B c q a b) fun s => (c.withStore s).query (sledComp B) q a b := by
  unfold slQueryP Chunk.query
  by_cases hp : c.poisoned
  · rw [if_pos hp]
    refine (Reports.ret _).congr fun s => ?_
    rw [if_pos (show (c.withStore s).poisoned = true from hp)]
  · rw [if_neg hp]
    by_cases hr : c.isWithRange a b
    · rw [if_pos hr]
      refine ((slMetadataP_reports q).andThen (slReadAllP_reports B a b)).congr fun s => ?_
      rw [if_neg (show ¬ (c.withStore s).poisoned = true from hp), if_pos (show (c.withStore s).isWithRange a b = true from hr)]
      rfl
    · rw [if_neg hr]
      refine (Reports.ret _).congr fun s => ?_
      rw [if_neg (show ¬ (c.withStore s).poisoned = true from hp), if_neg (show ¬ (c.withStore s).isWithRange a b = true from hr)]
      rfl

/-! ### Without failures the programs are the functions of the model -/

theorem TreeProg.run_andThen {α β : Type} (p : TreeProg (Res α)) (f : α → TreeProg (Res β)) (s : SledStores) :
    (p.andThen f).run s = match (p.run s).1 with
      | .ok a => (f a).run (p.run s).2
      | .err e => (.err e, (p.run s).2)
      | .panic => (.panic, (p.run s).2) := by
  unfold TreeProg.andThen
  rw [TreeProg.run_bind]
  rcases (p.run s).1 with a | e | _ <;> rfl

theorem slWriteP_run (i : U64) (p : TimePoint) (s : SledStores) :
    (slWriteP i p).run s = ((sledWrite s.ser i p).1, { s with ser := (sledWrite s.ser i p).2 }) := by
  unfold slWriteP sledWrite
  rw [TreeProg.run_andThen, TreeProg.run_get, TreeProg.run_ret]
  simp only [SledStores.get]
  rcases s.ser (sledKey i) with _ | v <;> rfl

theorem slCreateLabelsP_run (i : U64) (ls : Labels) (s : SledStores) :
    (slCreateLabelsP i ls).run s = (.ok (), { s with idx := (ls.map fun l => sledAppendId i (encodeLabel l)).foldl (fun kv f => f kv) s.idx }) := by
  induction ls generalizing s with
  | nil => rfl
  | cons l ls ih =>
    unfold slCreateLabelsP
    rw [TreeProg.run_andThen, TreeProg.run_get, TreeProg.run_ret]
    simp only [TreeProg.run_set, TreeProg.run_flush, ih, List.map_cons, List.foldl_cons, SledStores.set, SledStores.get]
    rfl

theorem slCreateP_run (ls : Labels) (i : U64) (s : SledStores) :
    (slCreateP ls i).run s = ((sledCreate s.idx ls i).1, { s with idx := (sledCreate s.idx ls i).2 }) := by
  unfold slCreateP sledCreate
  rw [TreeProg.run_andThen, TreeProg.run_get, TreeProg.run_ret]
  by_cases h : (s.idx (encodeLabels ls true)).isSome
  · have h' : (s.get .idx (encodeLabels ls true)).isSome := h
    simp only [if_pos h, if_pos h']; rfl
  · have h' : ¬ (s.get .idx (encodeLabels ls true)).isSome := h
    simp only [if_neg h, if_neg h']
    rw [TreeProg.run_set, TreeProg.run_set, slCreateLabelsP_run]; rfl

theorem slInsertP_run (B : BinSearch) (c : Chunk Unit) (ls : Labels) (p : TimePoint) (s : SledStores) :
    (((slInsertP c ls p).run s).1.1, ((slInsertP c ls p).run s).1.2.withStore ((slInsertP c ls p).run s).2) =
      (c.withStore s).insert (sledComp B) ls p := by
  unfold slInsertP Chunk.insert
  by_cases hp : c.poisoned
  · simp [hp, Chunk.withStore, TreeProg.run_ret]
  · have h1 : (c.withStore s).poisoned = false := by simpa [Chunk.withStore] using hp
    have h2 : (c.withStore s).isInRange p.ts = c.isInRange p.ts := rfl
    rw [if_neg hp, h1, h2]
    simp only [Bool.false_eq_true, if_false]
    by_cases hr : c.isInRange p.ts
    · have hb0 : (slByLabelsP ls).run s = (sledByLabels s.idx ls, s) := by
        unfold TreeProg.run; rw [(slByLabelsP_reports ls).clean, (slByLabelsP_reports ls).same]
      rw [if_pos hr, if_pos hr, TreeProg.run_bind, hb0]
      unfold Chunk.insertBody
      have hb' : (sledComp B).byLabels (c.withStore s).store ls = sledByLabels s.idx ls := rfl
      rw [hb']
      rcases sledByLabels s.idx ls with o | e | _
      · rcases o with _ | i
        · simp only
          rw [TreeProg.run_bind, slCreateP_run]
          simp only [sledComp, Chunk.withStore]
          rcases sledCreate s.idx ls (idNext c.nextId).1 with ⟨r, kv⟩
          rcases r with u | e | _
          · simp only
            rw [TreeProg.run_bind, slWriteP_run]
            simp only [TreeProg.run_ret]
            rcases sledWrite s.ser (idNext c.nextId).1 p with ⟨w, kv'⟩
            rcases w with u | e | _ <;> rfl
          · rfl
          · rfl
        · simp only
          rw [TreeProg.run_bind, slWriteP_run]
          simp only [sledComp, Chunk.withStore]
          rcases sledWrite s.ser i p with ⟨w, kv'⟩
          rcases w with u | e | _ <;> rfl
      · rfl
      · rfl
    · rw [if_neg hr, if_neg hr]; rfl

end Verif
