import Verif.Model.TikvFault
import Verif.Lemmas.Chunk
namespace Verif
open List

/-! ### Execution -/

theorem KvProg.exec_bind {α β : Type} (p : KvProg α) (f : α → KvProg β) (os : List OpOutcome) (kv : KV) :
    (p.bind f).exec os kv = (f (p.exec os kv).1.1).exec (p.exec os kv).1.2 (p.exec os kv).2 := by
  induction p generalizing os kv with
  | ret a => rfl
  | get k next ih =>
    simp only [KvProg.bind, KvProg.exec]
    split <;> exact ih _ _ _
  | set k v next ih =>
    simp only [KvProg.bind, KvProg.exec]
    split <;> exact ih _ _ _

/-- No operation fails. -/
def AllDone (os : List OpOutcome) : Prop := ∀ o ∈ os, o = .done

theorem AllDone.head {os : List OpOutcome} (h : AllDone os) : os.headD .done = .done := by
  cases os with
  | nil => rfl
  | cons o os => exact h o (by simp)

theorem AllDone.tail {os : List OpOutcome} (h : AllDone os) : AllDone os.tail := fun o ho => h o (List.mem_of_mem_tail ho)

/-- Without failures the outcome list does not matter. -/
theorem KvProg.exec_done {α : Type} (p : KvProg α) {os : List OpOutcome} (h : AllDone os) (kv : KV) :
    (p.exec os kv).1.1 = (p.exec [] kv).1.1 ∧ (p.exec os kv).2 = (p.exec [] kv).2 ∧ AllDone (p.exec os kv).1.2 := by
  induction p generalizing os kv with
  | ret a => exact ⟨rfl, rfl, h⟩
  | get k next ih =>
    simp only [KvProg.exec, h.head]
    exact ih _ h.tail _
  | set k v next ih =>
    simp only [KvProg.exec, h.head]
    exact ih _ h.tail _

theorem KvProg.exec_nil_left {α : Type} (p : KvProg α) (kv : KV) : (p.exec [] kv).1.2 = [] := by
  induction p generalizing kv with
  | ret a => rfl
  | get k next ih => exact ih _ _
  | set k v next ih => exact ih _ _

/-- `p` without failures: result and cluster. -/
def KvProg.run {α : Type} (p : KvProg α) (kv : KV) : α × KV := ((p.exec [] kv).1.1, (p.exec [] kv).2)

theorem KvProg.run_bind {α β : Type} (p : KvProg α) (f : α → KvProg β) (kv : KV) :
    (p.bind f).run kv = (f (p.run kv).1).run (p.run kv).2 := by
  unfold KvProg.run
  rw [KvProg.exec_bind, KvProg.exec_nil_left]

theorem KvProg.run_ret {α : Type} (a : α) (kv : KV) : (KvProg.ret a).run kv = (a, kv) := rfl
theorem KvProg.run_get {α : Type} (k : Str) (next : Res (Option Str) → KvProg α) (kv : KV) :
    (KvProg.get k next).run kv = (next (.ok (kv k))).run kv := rfl
theorem KvProg.run_set {α : Type} (k v : Str) (next : Res Unit → KvProg α) (kv : KV) :
    (KvProg.set k v next).run kv = (next (.ok ())).run (kv.set k v) := rfl

/-! ### Without failures the programs are the functions of the model -/

theorem writeP_run (spre : Str) (i : U64) (p : TimePoint) (kv : KV) : (writeP spre i p).run kv = tikvWrite spre kv i p := by
  unfold writeP tikvWrite
  rw [KvProg.run_get]
  rcases kv (tikvKey spre i) with _ | v
  · rfl
  · simp only
    rcases lastPoint v with l | e | _
    · simp only
      split <;> rfl
    · rfl
    · rfl

theorem readP_run (B : BinSearch) (spre : Str) (i a b : U64) (kv : KV) : (readP B spre i a b).run kv = (tikvRead B spre kv i a b, kv) := by
  unfold readP tikvRead
  rw [KvProg.run_get]
  rcases kv (tikvKey spre i) with _ | v <;> rfl

theorem byLabelsP_run (ipre : Str) (ls : Labels) (kv : KV) : (byLabelsP ipre ls).run kv = (tikvByLabels ipre kv ls, kv) := by
  unfold byLabelsP tikvByLabels
  rw [KvProg.run_get]
  rcases kv (ipre ++ encodeLabels ls true) with _ | v <;> rfl

theorem createLabelsP_run (ipre : Str) (i : U64) (ls : Labels) (kv : KV) :
    (createLabelsP ipre i ls).run kv = ((), (ls.map fun l => tikvAppendId i (ipre ++ encodeLabel l)).foldl (fun kv f => f kv) kv) := by
  induction ls generalizing kv with
  | nil => rfl
  | cons l ls ih =>
    unfold createLabelsP
    rw [KvProg.run_get]
    simp only [List.map_cons, List.foldl_cons, tikvAppendId]
    rcases h : kv (ipre ++ encodeLabel l) with _ | v
    · simp only; rw [KvProg.run_set, ih]
    · simp only; rw [KvProg.run_set, ih]

theorem createP_run (ipre : Str) (ls : Labels) (i : U64) (kv : KV) : (createP ipre ls i).run kv = tikvCreate ipre kv ls i := by
  unfold createP tikvCreate tikvCreateSteps
  rw [KvProg.run_set, KvProg.run_set, KvProg.run_bind, createLabelsP_run]
  rfl

theorem entriesP_run (ipre : Str) (ls : Labels) (kv : KV) :
    (entriesP ipre ls).run kv = (ls.filterMap fun l => kv (ipre ++ encodeLabel l), kv) := by
  induction ls with
  | nil => rfl
  | cons l ls ih =>
    unfold entriesP
    rw [KvProg.run_get]
    rcases h : kv (ipre ++ encodeLabel l) with _ | v
    · simp only; rw [ih, List.filterMap_cons_none (f := fun l => kv (ipre ++ encodeLabel l)) h]
    · simp only; rw [KvProg.run_bind, ih, List.filterMap_cons_some (f := fun l => kv (ipre ++ encodeLabel l)) h]; rfl

theorem containsP_run (ipre : Str) (ls : Labels) (kv : KV) : (containsP ipre ls).run kv = (tikvContains ipre kv ls, kv) := by
  unfold containsP tikvContains
  rw [KvProg.run_bind, entriesP_run]; rfl

theorem labelsOfP_run (ipre : Str) (is : List U64) (kv : KV) : (labelsOfP ipre is).run kv = (is.filterMap (tikvMeta1 ipre kv), kv) := by
  induction is with
  | nil => rfl
  | cons i is ih =>
    unfold labelsOfP
    rw [KvProg.run_get]
    rcases h : kv (ipre ++ encodeId i) with _ | v
    · simp only; rw [ih, List.filterMap_cons_none (by unfold tikvMeta1; rw [h])]
    · simp only
      rcases hd : decodeLabels v with ls | e | _
      · simp only; rw [KvProg.run_bind, ih, List.filterMap_cons_some (b := (i, ls)) (by unfold tikvMeta1; simp only [h, hd])]; rfl
      · simp only; rw [ih, List.filterMap_cons_none (by unfold tikvMeta1; simp only [h, hd])]
      · simp only; rw [ih, List.filterMap_cons_none (by unfold tikvMeta1; simp only [h, hd])]

theorem metadataP_run (ipre : Str) (ls : Labels) (kv : KV) : (metadataP ipre ls).run kv = (tikvMetadata ipre kv ls, kv) := by
  unfold metadataP tikvMetadata
  rw [KvProg.run_bind, containsP_run]
  rcases tikvContains ipre kv ls with ids | e | _
  · simp only; rw [KvProg.run_bind, labelsOfP_run]; rfl
  · rfl
  · rfl

theorem readAllP_run (B : BinSearch) (ipre spre : Str) (a b : U64) (ms : List (U64 × Labels)) (kv : KV) :
    (readAllP B spre a b ms).run kv = (readAll (tikvComp B ipre spre) kv a b ms, kv) := by
  induction ms with
  | nil => rfl
  | cons m ms ih =>
    obtain ⟨i, ls⟩ := m
    unfold readAllP readAll
    rw [KvProg.run_bind, readP_run]
    simp only [tikvComp]
    rcases tikvRead B spre kv i a b with d | e | _
    · simp only; rw [KvProg.run_bind, ih]; rfl
    · rfl
    · rfl

/-- The chunk of the model, from the parts. -/
def Chunk.withStore {σ τ : Type} (c : Chunk σ) (s : τ) : Chunk τ := ⟨c.start_, c.end_, c.closed, c.nextId, c.poisoned, s⟩

theorem queryP_run (B : BinSearch) (ipre spre : Str) (c : Chunk Unit) (q : Labels) (a b : U64) (kv : KV) :
    (queryP B ipre spre c q a b).run kv = ((c.withStore kv).query (tikvComp B ipre spre) q a b, kv) := by
  unfold queryP Chunk.query
  by_cases hp : c.poisoned
  · simp [hp, Chunk.withStore, KvProg.run_ret]
  · have h1 : (c.withStore kv).poisoned = false := by simpa [Chunk.withStore] using hp
    have h2 : (c.withStore kv).isWithRange a b = c.isWithRange a b := rfl
    rw [if_neg hp, h1, h2]
    simp only [Bool.false_eq_true, if_false]
    by_cases hr : c.isWithRange a b
    · rw [if_pos hr, if_pos hr, KvProg.run_bind, metadataP_run]
      show _ = ((tikvMetadata ipre kv q).bind _, kv)
      rcases tikvMetadata ipre kv q with ms | e | _
      · simp only; rw [readAllP_run B ipre]; rfl
      · rfl
      · rfl
    · rw [if_neg hr, if_neg hr]; rfl

theorem insertP_run (B : BinSearch) (ipre spre : Str) (c : Chunk Unit) (ls : Labels) (p : TimePoint) (kv : KV) :
    (((insertP ipre spre c ls p).run kv).1.1, ((insertP ipre spre c ls p).run kv).1.2.withStore ((insertP ipre spre c ls p).run kv).2) =
      (c.withStore kv).insert (tikvComp B ipre spre) ls p := by
  unfold insertP Chunk.insert
  by_cases hp : c.poisoned
  · simp [hp, Chunk.withStore, KvProg.run_ret]
  · have h1 : (c.withStore kv).poisoned = false := by simpa [Chunk.withStore] using hp
    have h2 : (c.withStore kv).isInRange p.ts = c.isInRange p.ts := rfl
    rw [if_neg hp, h1, h2]
    simp only [Bool.false_eq_true, if_false]
    by_cases hr : c.isInRange p.ts
    · rw [if_pos hr, if_pos hr, KvProg.run_bind, byLabelsP_run]
      unfold Chunk.insertBody
      simp only [tikvComp]
      rcases hb : tikvByLabels ipre kv ls with o | e | _
      · have hb' : tikvByLabels ipre (c.withStore kv).store ls = .ok o := hb
        rw [hb']
        rcases o with _ | i
        · simp only
          rw [KvProg.run_bind, createP_run]
          simp only [tikvCreate]
          rw [KvProg.run_bind, writeP_run]
          simp only [KvProg.run_ret, Chunk.withStore]
          rcases tikvWrite spre _ (idNext c.nextId).1 p with ⟨w, kv'⟩
          rcases w with u | e | _ <;> rfl
        · simp only
          rw [KvProg.run_bind, writeP_run]
          simp only [Chunk.withStore]
          rcases tikvWrite spre kv i p with ⟨w, kv'⟩
          rcases w with u | e | _ <;> rfl
      · have hb' : tikvByLabels ipre (c.withStore kv).store ls = .err e := hb
        rw [hb']; rfl
      · have hb' : tikvByLabels ipre (c.withStore kv).store ls = .panic := hb
        rw [hb']; rfl
    · rw [if_neg hr, if_neg hr]; rfl

end Verif
