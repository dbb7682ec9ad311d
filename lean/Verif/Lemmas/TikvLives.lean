import Verif.Lemmas.Sessions
import Verif.Model.TikvLives
/-! Lives of a server with a TiKV component: what an earlier life has stored contributes nothing. -/
namespace Verif
open List

/-- A chunk read again is not poisoned. -/
theorem existing_quiet {base : Str} {clock : Str → U64} {ss : List Slot} {A : List SChunk} (h : readExistingChunks base clock ss = some A) : ∀ c ∈ A, c.poisoned = false := by
  unfold readExistingChunks at h
  obtain ⟨cs, h1, rfl⟩ := Option.map_eq_some_iff.mp h
  have hp := stableSort_perm (fun a b : SChunk => decide (a.start_.toNat ≤ b.start_.toNat)) cs
  intro c hc
  replace hc := hp.mem_iff.mp hc
  clear h hp
  induction ss generalizing cs with
  | nil =>
    simp only [readChunks, Option.some.injEq] at h1
    subst h1; cases hc
  | cons s ss ih =>
    unfold readChunks at h1
    rcases hr : s.reopen base clock with _ | (_ | c')
    · rw [hr] at h1; cases h1
    · rw [hr] at h1; exact ih _ h1 hc
    · rw [hr] at h1
      obtain ⟨cs', h2, rfl⟩ := Option.map_eq_some_iff.mp h1
      rcases List.mem_cons.mp hc with rfl | hc
      · unfold Slot.reopen at hr
        split at hr
        · cases hr
        · cases hr
        · obtain rfl := Option.some.inj (Option.some.inj hr)
          rfl
      · exact ih _ h2 hc

theorem readAgain_none (idx : KV) {x : Byte} (hx : x ≠ 0#8) (k : Str) : readAgain idx (x :: k) = none := by
  unfold readAgain
  rw [if_neg]
  simp [nilUuid, List.replicate_succ, List.isPrefixOf, Ne.symm hx]

/-- A chunk whose TiKV indexer is read again has no series. -/
theorem recalled_query (B : BinSearch) (st : Backend) {S : SChunk} (hq : S.poisoned = false) (q : Labels) (a b : U64) :
    ({ S with store := { S.store with idx := readAgain S.store.idx } } : SChunk).query (kitComp ⟨B, st, .tikv⟩) q a b =
      if S.isWithRange a b then .ok [] else .err (.outOfRange S.start_ S.end_) := by
  have hm : (kitComp ⟨B, st, .tikv⟩).metadata { S.store with idx := readAgain S.store.idx } q = .ok [] := by
    show tikvMetadata [] (readAgain S.store.idx) q = .ok []
    unfold tikvMetadata tikvContains
    have : (q.filterMap fun l => readAgain S.store.idx ([] ++ encodeLabel l)) = [] := by
      rw [List.filterMap_eq_nil_iff]
      intro l _
      exact readAgain_none _ (by decide) _
    rw [this]
    rfl
  unfold Chunk.query
  simp only [hq, Bool.false_eq_true, if_false]
  rw [hm]
  rfl

/-- The older chunks contribute nothing. -/
theorem recall_frozen (D : Deployment) (hD : D.tikv) (B : BinSearch) {base : Str} {clock : Str → U64} {ss : List Slot} {A : List SChunk}
    (h : readExistingChunks base clock ss = some A) :
    Forall₂ (Frozen (D.kit B) fun _ => False) (D.recall A) ((D.recall A).map fun _ => fun _ _ _ => []) := by
  have hq := existing_quiet h
  have dry : D.recall A = [] → Forall₂ (Frozen (D.kit B) fun _ => False) (D.recall A) ((D.recall A).map fun _ => fun _ _ _ => []) := by
    intro e; rw [e]; exact .nil
  cases D with
  | dryRun st ix =>
    refine dry ?_
    cases st <;> cases ix
    · rcases hD with e | e <;> cases e
    all_goals rfl
  | clusterIndex =>
    rw [List.forall₂_map_right_iff, List.forall₂_same]
    intro c hc
    obtain ⟨S, hS, rfl⟩ := List.mem_map.mp hc
    have e := recalled_query B .sled (hq S hS)
    refine ⟨hq S hS, fun q _ a b _ => ?_, fun q _ a b _ => ?_, fun _ _ _ _ _ _ => rfl, fun _ _ _ _ _ => List.nodup_nil, fun _ _ _ _ _ x hx => by cases hx⟩
    · show Chunk.query (kitComp ⟨B, .sled, .tikv⟩) _ q a b ≠ .panic
      rw [e]
      split <;> simp
    · show okSeries (Chunk.query (kitComp ⟨B, .sled, .tikv⟩) _ q a b) = []
      rw [e]
      split <;> rfl

section
variable {D : Deployment} {B : BinSearch} {H : Hash} {P : Paths} {base : Str} {ss : List Session}

theorem livesD_succ (F : Formats) {n : Nat} {s : Session} (hs : ss[n]? = some s) :
    livesD D B H F P base (ss.take (n + 1)) = s.leavesD D B H F P base (livesD D B H F P base (ss.take n)) := by
  obtain ⟨h, rfl⟩ := List.getElem?_eq_some_iff.mp hs
  unfold livesD
  rw [List.take_succ_eq_append_getElem h, List.foldl_append]
  rfl

theorem openedD_eq (F : Formats) {n : Nat} {s : Session} (hs : ss[n]? = some s) {sched : List Nat} {c : SrvConf} (h : serverOfD D B H F P base ss n sched = some c) :
    3 ≤ s.born ∧ ∃ A, readExistingChunks base s.clock (s.order (livesD D B H F P base (ss.take n))) = some A ∧
      c = (SrvConf.startOn (D.recall A) s.now (s.now + s.size) s.ticks s.reqs).run (D.kit B) H F P sched := by
  unfold serverOfD Session.atD at h
  rw [hs] at h
  simp only [Option.bind_some] at h
  rcases hA : readExistingChunks base s.clock (s.order (livesD D B H F P base (ss.take n))) with _ | A
  · rw [hA] at h; cases h
  · rw [hA] at h
    simp only [] at h
    split at h
    · cases h
    · rename_i hb
      exact ⟨by omega, A, rfl, (Option.some.inj h).symm⟩

theorem openedD_at (F : Formats) {n : Nat} {s : Session} (hs : ss[n]? = some s) (hb : 3 ≤ s.born) {A : List SChunk}
    (hA : readExistingChunks base s.clock (s.order (livesD D B H F P base (ss.take n))) = some A) (sched : List Nat) :
    serverOfD D B H F P base ss n sched = some ((SrvConf.startOn (D.recall A) s.now (s.now + s.size) s.ticks s.reqs).run (D.kit B) H F P sched) := by
  unfold serverOfD Session.atD
  rw [hs]
  simp only [Option.bind_some]
  rw [hA]
  simp only []
  rw [if_neg (by omega)]

/-- All directories are those of chunks. -/
theorem livesD_names (F : Formats) (hord : ∀ s ∈ ss, ∀ l, (s.order l).Perm l) {n : Nat} (hn : n ≤ ss.length) :
    ∀ sl ∈ livesD D B H F P base (ss.take n), ∃ lo hi, sl.name = encodeChunkDir lo hi := by
  induction n with
  | zero => intro sl hsl; simp [livesD] at hsl
  | succ n ih =>
    have hs : ss[n]? = some ss[n] := List.getElem?_eq_getElem (by omega)
    have ih := ih (by omega)
    have hold : ∀ sl ∈ ss[n].order (livesD D B H F P base (ss.take n)), ∃ lo hi, sl.name = encodeChunkDir lo hi :=
      fun sl hsl => ih sl ((hord _ (List.getElem_mem _) _).mem_iff.mp hsl)
    rw [livesD_succ F hs]
    unfold Session.leavesD
    split
    · exact hold
    · intro sl hsl
      rcases List.mem_append.mp hsl with hsl | hsl
      · exact hold sl hsl
      · split at hsl
        · obtain ⟨lo, hi, e, -⟩ := newDir_ok (D.kit B) (fun _ _ => True) _ _ _ sl hsl
          exact ⟨lo, hi, e⟩
        · rcases List.mem_append.mp hsl with hsl | hsl
          · obtain ⟨S, -, rfl⟩ := List.mem_map.mp hsl
            exact ⟨_, _, rfl⟩
          · obtain ⟨lo, hi, e, -⟩ := nextDir_ok (D.kit B) (fun _ _ => True) _ _ sl hsl
            exact ⟨lo, hi, e⟩

end

end Verif
