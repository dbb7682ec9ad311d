import Verif.Lemmas.ClusterStep
import Verif.Lemmas.ServerConcProgress
import Verif.Spec.Cluster
/-! Servers that share a cluster do not see each other. -/
namespace Verif

theorem Moved.withTodo {K : Kit} {c c' : FConf} {todo : List DbOp} (h : Moved K (c.withTodo todo) c') : Moved K c c' := ⟨h.le, h.fresh, h.one⟩

theorem ElemConf.withTodo {K : Kit} {c : FConf} (h : ElemConf K c) (todo : List DbOp) : ElemConf K (c.withTodo todo) := by
  refine ⟨h.lock, fun u ph e => h.thr u ph ?_⟩
  by_cases hu : u = 1
  · subst hu; simpa [FConf.withTodo, FConf.setThread] using e
  · simpa [FConf.withTodo, FConf.setThread, hu] using e

theorem resume_db (c : SrvConf) : c.resume.db = c.db := by
  unfold SrvConf.resume
  split <;> rfl

theorem srv_moved {K : Kit} {H : Hash} {F : Formats} {P : Paths} {c : SrvConf} (h : ElemConf K c.db) (t : Nat) :
    Moved K c.db (c.step K H F P t).db ∧ ElemConf K (c.step K H F P t).db := by
  unfold SrvConf.step
  split
  · exact ⟨.same rfl, h⟩
  · split
    · exact fstep_moved h 0
    · unfold SrvConf.work
      split
      · rw [resume_db]
        exact fstep_moved h 1
      · split
        · exact ⟨(fstep_moved (h.withTodo _) 1).1.withTodo, (fstep_moved (h.withTodo _) 1).2⟩
        · exact ⟨.same rfl, h⟩
        · split
          · exact ⟨.same rfl, h⟩
          · exact ⟨.same rfl, h⟩
    · exact ⟨.same rfl, h⟩

theorem ElemConf.seen {K : Kit} {c : FConf} (h : ElemConf K c) (ids : Nat → Str × Str) (kv : KV) : ElemConf K (c.seen K ids kv) := by
  refine ⟨fun i S x w p e1 e2 => ?_, h.thr⟩
  simp only [FConf.seen, List.getElem?_mapIdx, Option.map_eq_some_iff] at e1
  obtain ⟨S0, e0, rfl⟩ := e1
  exact h.lock i S0 x w p e0 e2

/-- What the chunks hold agrees with the cluster. -/
def Fresh (m : Member) (kv : KV) (c : FConf) : Prop := ∀ (i : Nat) (S : FChunk), c.chunks[i]? = some S → m.kit.ix = .tikv → S.store.store.idx = under (m.ids i).1 kv

theorem seen_eq {m : Member} {kv : KV} {c : SrvConf} (hst : m.kit.st = .sled) (h : Fresh m kv c.db) : c.seen m kv = c := by
  have e : c.db.seen m.kit m.ids kv = c.db := by
    have : (c.db.chunks.mapIdx fun i S => S.seen m.kit (m.ids i) kv) = c.db.chunks := by
      apply List.ext_getElem?
      intro i
      rw [List.getElem?_mapIdx]
      rcases hS : c.db.chunks[i]? with _ | S
      · rfl
      · simp only [Option.map_some, Option.some.injEq]
        have := h i S hS
        unfold FChunk.seen
        rw [hst]
        rcases hix : m.kit.ix
        · rfl
        · simp only []
          rw [← this hix]
    unfold FConf.seen
    rw [this]
  unfold SrvConf.seen
  rw [e]

theorem seen_fresh (m : Member) (kv : KV) (c : SrvConf) : Fresh m kv (c.seen m kv).db := by
  intro i S hS hix
  simp only [SrvConf.seen, FConf.seen, List.getElem?_mapIdx, Option.map_eq_some_iff] at hS
  obtain ⟨S0, -, rfl⟩ := hS
  simp only [FChunk.seen, hix]

theorem mem_areas {K : Kit} {ids : Nat → Str × Str} {c c' : FConf} {a : Area} (h : a ∈ areas K ids c c') :
    ∃ (i : Nat) (S S' : FChunk), c.chunks[i]? = some S ∧ c'.chunks[i]? = some S' ∧
      (K.ix = .tikv ∧ a = ⟨(ids i).1, S.store.store.idx, S'.store.store.idx⟩ ∨ K.st = .tikv ∧ a = ⟨(ids i).2, S.store.store.ser, S'.store.store.ser⟩) := by
  unfold areas at h
  obtain ⟨i, -, h⟩ := List.mem_flatMap.mp h
  rcases e1 : c.chunks[i]? with _ | S
  · simp [e1] at h
  · rcases e2 : c'.chunks[i]? with _ | S'
    · simp [e1, e2] at h
    · refine ⟨i, S, S', e1, e2, ?_⟩
      simp only [e1, e2, List.mem_append] at h
      rcases h with h | h
      · rcases hix : K.ix
        · simp [hix] at h
        · exact Or.inl ⟨rfl, by simpa [hix] using h⟩
      · rcases hst : K.st
        · simp [hst] at h
        · exact Or.inr ⟨rfl, by simpa [hst] using h⟩

theorem areas_idx {K : Kit} {ids : Nat → Str × Str} {c c' : FConf} {i : Nat} {S S' : FChunk} (h : c.chunks[i]? = some S) (h' : c'.chunks[i]? = some S') (hix : K.ix = .tikv) :
    (⟨(ids i).1, S.store.store.idx, S'.store.store.idx⟩ : Area) ∈ areas K ids c c' := by
  unfold areas
  refine List.mem_flatMap.mpr ⟨i, List.mem_range.mpr (List.getElem?_eq_some_iff.mp h).1, ?_⟩
  simp [h, h', hix]

/-- A key of a component is changed only by a change of that component. -/
theorem writeBack_eq {as : List Area} {kv : KV} {k : Str} {v : Option Str}
    (h1 : ∀ a ∈ as, a.pre <+: k → a.new (k.drop a.pre.length) ≠ a.old (k.drop a.pre.length) → a.new (k.drop a.pre.length) = v)
    (h2 : (∀ a ∈ as, a.pre <+: k → a.new (k.drop a.pre.length) = a.old (k.drop a.pre.length)) → kv k = v) : writeBack as kv k = v := by
  unfold writeBack
  split
  · rename_i a e
    have h := List.find?_some e
    simp only [Bool.and_eq_true, List.isPrefixOf_iff_prefix, decide_eq_true_eq] at h
    exact h1 a (List.mem_of_find?_eq_some e) h.1 h.2
  · rename_i e
    refine h2 fun a ha hp => ?_
    have h := List.find?_eq_none.mp e a ha
    simp only [Bool.and_eq_true, List.isPrefixOf_iff_prefix, decide_eq_true_eq, not_and, not_not] at h
    exact h hp

/-! ### How many chunks there are -/

/-- Inside a swap, after the push. -/
def pushed : Option FPhase → Bool
  | some (.s2 _ _) => true
  | _ => false

theorem fstep_swaps {K : Kit} {H : Hash} (c : FConf) (t : Nat) :
    ((c.step K H t).chunks.length = c.chunks.length ∧ (c.step K H t).secondary = c.secondary ∧ pushed ((c.step K H t).threads t).now = pushed (c.threads t).now) ∨
    ((c.step K H t).chunks.length = c.chunks.length ∧ (c.step K H t).secondary.length = c.secondary.length + 1 ∧ pushed ((c.step K H t).threads t).now = true) ∨
    ((c.step K H t).chunks.length = c.chunks.length + 1 ∧ (c.step K H t).secondary = c.secondary ∧ pushed (c.threads t).now = true ∧
      pushed ((c.step K H t).threads t).now = false) := by
  unfold FConf.step
  split <;> rename_i hn
  · left
    unfold FConf.begin
    split
    · split <;> simp [FConf.goto, FConf.setThread, pushed, hn]
    · simp [hn]
  case h_6 => left; simp [FConf.goto, FConf.setThread, pushed, hn]
  case h_9 =>
    split
    · left; simp [hn]
    · right; left; simp [FConf.goto, FConf.setThread, FConf.dropCur, pushed]
  case h_10 =>
    unfold FConf.stepS2
    split
    · left; simp [hn]
    · split
      · left; simp [hn]
      · split
        · left; simp [hn]
        · right; right; simp [FConf.finish, FConf.setThread, pushed, hn]
  all_goals
    left
    simp only [FConf.stepWriting, FConf.stepInserting, FConf.stepQ1, FConf.stepReading1, FConf.stepQ3, FConf.stepReading3]
    repeat' split
  all_goals simp [FConf.goto, FConf.finish, FConf.setThread, FConf.setChunk, FConf.dropCur, FConf.dropSec, pushed, hn]

/-- The timer alone swaps, so often; there is one chunk more than chunks pushed, or the last push waits for its chunk. -/
structure Bounded (M n : Nat) (c : SrvConf) : Prop where
  inv : PInv M n c
  len : c.db.chunks.length + (if pushed (c.db.threads 0).now then 1 else 0) ≤ c.db.secondary.length + 1

theorem Bounded.le {M n : Nat} {c : SrvConf} (h : Bounded M n c) : c.db.chunks.length ≤ M + 1 := by
  have := h.inv.lk.count
  have := h.len
  omega

theorem notS2 {M : Nat} {c : FConf} (h : LK M c) : pushed (c.threads 1).now = false := by
  have := (h.swaps 1 (by decide)).1
  generalize (c.threads 1).now = o at this
  rcases o with _ | ph
  · rfl
  · cases ph <;> first | rfl | simp [fIsSwap] at this

theorem len_step0 {K : Kit} {H : Hash} {c : FConf} (h : c.chunks.length + (if pushed (c.threads 0).now then 1 else 0) ≤ c.secondary.length + 1) :
    (c.step K H 0).chunks.length + (if pushed ((c.step K H 0).threads 0).now then 1 else 0) ≤ (c.step K H 0).secondary.length + 1 := by
  rcases fstep_swaps (K := K) (H := H) c 0 with ⟨h1, h2, h3⟩ | ⟨h1, h2, h3⟩ | ⟨h1, h2, h3, h4⟩
  · rw [h1, h2, h3]; exact h
  · rw [h1, h2, h3]; split at h <;> simp <;> omega
  · rw [h1, h2, h4]; rw [h3] at h; simpa using h

theorem len_step1 {K : Kit} {H : Hash} {c : FConf} (h : c.chunks.length + (if pushed (c.threads 0).now then 1 else 0) ≤ c.secondary.length + 1)
    (h0 : pushed (c.threads 1).now = false) (h1 : pushed ((c.step K H 1).threads 1).now = false) :
    (c.step K H 1).chunks.length + (if pushed ((c.step K H 1).threads 0).now then 1 else 0) ≤ (c.step K H 1).secondary.length + 1 := by
  rw [step_fother 1 0 (by decide)]
  rcases fstep_swaps (K := K) (H := H) c 1 with ⟨g1, g2, g3⟩ | ⟨g1, g2, g3⟩ | ⟨g1, g2, g3, g4⟩
  · rw [g1, g2]; exact h
  · rw [h1] at g3; cases g3
  · rw [h0] at g3; cases g3

theorem Bounded.step {M n : Nat} {K : Kit} {H : Hash} {F : Formats} {P : Paths} {c : SrvConf} (h : Bounded M n c) (t : Nat) : Bounded M n (c.step K H F P t) := by
  have hp := (h.inv.step (B := K) (H := H) (F := F) (P := P) t).1
  refine ⟨hp, ?_⟩
  have hl := notS2 hp.lk
  revert hl
  unfold SrvConf.step
  split
  · exact fun _ => h.len
  · split
    · exact fun _ => len_step0 h.len
    · unfold SrvConf.work
      split
      · rw [resume_db]
        exact fun hl => len_step1 h.len (notS2 h.inv.lk) hl
      · split
        · rename_i op k hc
          intro hl
          refine len_step1 (c := c.db.withTodo [op]) ?_ ?_ hl
          · rw [withTodo_now]; exact h.len
          · rw [withTodo_now]; exact notS2 h.inv.lk
        · exact fun _ => h.len
        · split
          · exact fun _ => h.len
          · exact fun _ => h.len
    · exact fun _ => h.len

theorem seen_lockAt (m : Member) (kv : KV) (c : SrvConf) (i : Nat) : (c.seen m kv).db.lockAt i = c.db.lockAt i := by
  unfold FConf.lockAt SrvConf.seen FConf.seen
  simp only [List.getElem?_mapIdx]
  rcases c.db.chunks[i]? with _ | S <;> rfl

theorem seen_chunks (m : Member) (kv : KV) (c : SrvConf) : (c.seen m kv).db.chunks.length = c.db.chunks.length := by simp [SrvConf.seen, FConf.seen]

theorem Bounded.seen {M n : Nat} {c : SrvConf} (h : Bounded M n c) (m : Member) (kv : KV) : Bounded M n (c.seen m kv) := by
  have hl := h.inv.lk
  have hc := seen_chunks m kv c
  refine ⟨⟨⟨by rw [hc]; exact hl.heap, hl.curR, hl.secR, hl.swaps, fun i hi => by rw [hc]; exact hl.sec i hi, fun t => by rw [hc]; exact hl.ids t, hl.count,
    fun i x hx => hl.lock i x (by rw [← seen_lockAt m kv c i]; exact hx), fun u hu => ?_⟩, h.inv.todo, h.inv.others, h.inv.clean, h.inv.call, h.inv.count⟩, by rw [hc]; exact h.len⟩
  obtain ⟨x, e1, e2⟩ := hl.held u hu
  exact ⟨x, by rw [seen_lockAt]; exact e1, e2⟩

theorem seen_congr {m : Member} {kv kv' : KV} (hst : m.kit.st = .sled) {c : SrvConf}
    (h : ∀ i k, i < c.db.chunks.length → kv' ((m.ids i).1 ++ k) = kv ((m.ids i).1 ++ k)) : c.seen m kv' = c.seen m kv := by
  have e : (c.db.chunks.mapIdx fun i S => S.seen m.kit (m.ids i) kv') = c.db.chunks.mapIdx fun i S => S.seen m.kit (m.ids i) kv := by
    apply List.ext_getElem?
    intro i
    rw [List.getElem?_mapIdx, List.getElem?_mapIdx]
    rcases hS : c.db.chunks[i]? with _ | S
    · rfl
    · have e : under (m.ids i).1 kv' = under (m.ids i).1 kv := funext fun k => h i k (List.getElem?_eq_some_iff.mp hS).1
      unfold FChunk.seen
      simp only [e, hst]
  unfold SrvConf.seen FConf.seen
  rw [e]

theorem pre_eq {a b k : Str} (hl : a.length = b.length) (h : a <+: b ++ k) : a = b := by
  obtain ⟨x, e⟩ := h
  exact (List.append_inj e hl).1

/-- The servers keep to their chunks. -/
structure Kept88 (ms : Nat → Member) (f : Fleet) : Prop where
  elem : ∀ n, ElemConf (ms n).kit (f.nodes n).db
  size : ∀ n, Bounded (ms n).ticks.length (ms n).reqs.length (f.nodes n)

/-- The state of the server `n` is that of a server of its own, and what its later chunks will use is empty. -/
structure Alone (ms : Nat → Member) (f : Fleet) (n : Nat) (R : SrvConf) : Prop where
  seen : (f.nodes n).seen (ms n) f.cluster = R
  unused : ∀ i k, (f.nodes n).db.chunks.length ≤ i → i ≤ (ms n).ticks.length → f.cluster (((ms n).ids i).1 ++ k) = none

section
variable {ms : Nat → Member} {N : Nat} {kv : KV} {ops : List FleetOp} {H : Hash} {F : Formats} {f : Fleet}

theorem Kept88.step (h : Kept88 ms f) (op : FleetOp) : Kept88 ms (f.step ms H F op) := by
  cases op with
  | other k v => exact ⟨h.elem, h.size⟩
  | turn m t =>
    refine ⟨fun n => ?_, fun n => ?_⟩
    · show ElemConf _ (if n = m then _ else f.nodes n).db
      split
      · rename_i e
        subst e
        exact (srv_moved (c := (f.nodes n).seen (ms n) f.cluster) ((h.elem n).seen (ms n).ids f.cluster) t).2
      · exact h.elem n
    · show Bounded _ _ (if n = m then _ else f.nodes n)
      split
      · rename_i e
        subst e
        exact ((h.size n).seen _ _).step t
      · exact h.size n

theorem owns_chunk (h : Kept88 ms f) {n i : Nat} (hn : n < N) {c : SrvConf} {S : FChunk} (hl : c.db.chunks.length = (f.nodes n).db.chunks.length)
    (hS : c.db.chunks[i]? = some S) : Owns ms N n i := by
  have := (h.size n).le
  have := (List.getElem?_eq_some_iff.mp hS).1
  exact ⟨hn, by omega⟩

theorem turn_other (ha : Apart ms N kv ops) (hk : Kept88 ms f) {m n t : Nat} (hm : m < N) (hmn : m ≠ n) {i : Nat} (ho : Owns ms N n i) (k : Str) :
    (f.step ms H F (.turn m t)).cluster (((ms n).ids i).1 ++ k) = f.cluster (((ms n).ids i).1 ++ k) := by
  refine writeBack_eq (fun a hmem hp hne => absurd ?_ hne) fun _ => rfl
  obtain ⟨j, S, S', e1, e2, h⟩ := mem_areas hmem
  have hj : Owns ms N m j := owns_chunk hk hm (seen_chunks (ms m) f.cluster (f.nodes m)) e1
  rcases h with ⟨-, rfl⟩ | ⟨hst, rfl⟩
  · exact absurd (ha.distinct _ _ _ _ hj ho (pre_eq (by rw [ha.len _ _ hj, ha.len _ _ ho]) hp)).1 hmn
  · simp only [ha.storage _ _ hj, List.length_nil, List.drop_zero] at hne ⊢
    obtain ⟨-, -, j', h1, h2⟩ := (srv_moved (H := H) (F := F) (P := (ms m).paths) (c := (f.nodes m).seen (ms m) f.cluster) ((hk.elem m).seen (ms m).ids f.cluster) t).1
    by_cases hj : j = j'
    · subst hj
      rcases h2 S S' e1 e2 with h | ⟨x, v, h⟩ | ⟨x, v, h⟩
      · rw [h]
      · rw [h]
      · rw [h]
        refine if_neg fun e => ?_
        have := congrArg List.length e
        simp [Kit.key, hst, tikvKey, ha.len _ _ ho] at this
        omega
    · rw [h1 j S S' hj e1 e2]

theorem turn_own (ha : Apart ms N kv ops) (hk : Kept88 ms f) {n t : Nat} {R : SrvConf} (hn : n < N) (hst : (ms n).kit.st = .sled) (h : Alone ms f n R) :
    Alone ms (f.step ms H F (.turn n t)) n (R.step (ms n).kit H F (ms n).paths t) := by
  have hR := h.seen
  have hmv := (srv_moved (H := H) (F := F) (P := (ms n).paths) (c := (f.nodes n).seen (ms n) f.cluster) ((hk.elem n).seen (ms n).ids f.cluster) t).1
  have hfr := seen_fresh (ms n) f.cluster (f.nodes n)
  have hlen := seen_chunks (ms n) f.cluster (f.nodes n)
  have hbd := ((hk.size n).seen (ms n) f.cluster).step (K := (ms n).kit) (H := H) (F := F) (P := (ms n).paths) t
  rw [hR] at hmv hfr hlen hbd
  have hnode : (f.step ms H F (.turn n t)).nodes n = R.step (ms n).kit H F (ms n).paths t := by
    show (if n = n then _ else _) = _
    rw [if_pos rfl, hR]
  have hcl : (f.step ms H F (.turn n t)).cluster = writeBack (areas (ms n).kit (ms n).ids R.db (R.step (ms n).kit H F (ms n).paths t).db) f.cluster := by
    show writeBack _ _ = _
    rw [hR]
  have hun : ∀ i k, R.db.chunks.length ≤ i → i ≤ (ms n).ticks.length → (f.step ms H F (.turn n t)).cluster (((ms n).ids i).1 ++ k) = none := by
    intro i k hi hi'
    rw [hcl]
    refine writeBack_eq (fun a hmem hp hne => ?_) fun _ => h.unused i k (by omega) hi'
    obtain ⟨j, S, S', e1, e2, ⟨-, rfl⟩ | ⟨hst', rfl⟩⟩ := mem_areas hmem
    · have hj : Owns ms N n j := owns_chunk hk hn hlen e1
      have := (ha.distinct _ _ _ _ hj ⟨hn, hi'⟩ (pre_eq (by rw [ha.len _ _ hj, ha.len _ _ ⟨hn, hi'⟩]) hp)).2
      have := (List.getElem?_eq_some_iff.mp e1).1
      omega
    · rw [hst] at hst'
      cases hst'
  refine ⟨?_, fun i k hi hi' => hun i k (Nat.le_trans hmv.le (by rw [hnode] at hi; exact hi)) hi'⟩
  rw [hnode]
  refine seen_eq hst fun i S' hS' hix => ?_
  funext k
  show _ = (f.step ms H F (.turn n t)).cluster _
  have ho : Owns ms N n i := ⟨hn, by have := hbd.le; have := (List.getElem?_eq_some_iff.mp hS').1; omega⟩
  by_cases hi : R.db.chunks.length ≤ i
  · rw [hun i k hi ho.2, hmv.fresh i S' hi hS']
    rfl
  · rw [hcl]
    have hS : R.db.chunks[i]? = some (R.db.chunks[i]'(by omega)) := List.getElem?_eq_getElem _
    refine (writeBack_eq (fun a hmem hp hne => ?_) fun hall => ?_).symm
    · obtain ⟨j, S, S2, e1, e2, ⟨-, rfl⟩ | ⟨hst', rfl⟩⟩ := mem_areas hmem
      · have hj : Owns ms N n j := owns_chunk hk hn hlen e1
        have := (ha.distinct _ _ _ _ hj ho (pre_eq (by rw [ha.len _ _ hj, ha.len _ _ ho]) hp)).2
        subst this
        rw [hS'] at e2
        cases e2
        simp
      · rw [hst] at hst'
        cases hst'
    · have := hall _ (areas_idx hS hS' hix) (List.prefix_append _ _)
      simp only [List.drop_left] at this
      rw [this, hfr i _ hS hix]
      rfl

theorem Alone.congr {f' : Fleet} {n : Nat} {R : SrvConf} (hk : Kept88 ms f) (hst : (ms n).kit.st = .sled) (h : Alone ms f n R) (hn : f'.nodes n = f.nodes n)
    (hc : ∀ i k, i ≤ (ms n).ticks.length → f'.cluster (((ms n).ids i).1 ++ k) = f.cluster (((ms n).ids i).1 ++ k)) : Alone ms f' n R := by
  refine ⟨?_, fun i k hi hi' => by rw [hc i k hi']; exact h.unused i k (by rw [hn] at hi; exact hi) hi'⟩
  rw [hn, seen_congr hst fun i k hi => hc i k (by have := (hk.size n).le; omega)]
  exact h.seen

end

theorem fleet_alone {ms : Nat → Member} {N : Nat} {kv : KV} {all : List FleetOp} (ha : Apart ms N kv all) (H : Hash) (F : Formats) {n : Nat} (hn : n < N)
    (hst : (ms n).kit.st = .sled) : ∀ (ops : List FleetOp) (f : Fleet) (R : SrvConf), (∀ op ∈ ops, op ∈ all) → Kept88 ms f → Alone ms f n R →
      Alone ms (f.run ms H F ops) n (R.run (ms n).kit H F (ms n).paths (turnsOf n ops)) := by
  intro ops
  induction ops with
  | nil => intro f R _ _ h; exact h
  | cons op ops ih =>
    intro f R hall hel h
    show Alone ms ((f.step ms H F op).run ms H F ops) n _
    have hall' : ∀ op ∈ ops, op ∈ all := fun x hx => hall x (List.mem_cons_of_mem _ hx)
    cases op with
    | other k v =>
      refine ih _ _ hall' (hel.step _) (h.congr hel hst rfl fun i x hi => ?_)
      refine if_neg fun e => ha.others k v (hall _ List.mem_cons_self) n i ⟨hn, hi⟩ ?_
      rw [← e]
      exact List.prefix_append _ _
    | turn m t =>
      by_cases hmn : m = n
      · subst hmn
        have e : turnsOf m (.turn m t :: ops) = t :: turnsOf m ops := by simp [turnsOf, FleetOp.turnOf]
        rw [e]
        exact ih _ _ hall' (hel.step _) (turn_own ha hel hn hst h)
      · have e : turnsOf n (.turn m t :: ops) = turnsOf n ops := by simp [turnsOf, FleetOp.turnOf, hmn]
        rw [e]
        exact ih _ _ hall' (hel.step _) (h.congr hel hst (if_neg (Ne.symm hmn)) fun i k hi =>
          turn_other ha hel (ha.turns m t (hall _ List.mem_cons_self)) hmn ⟨hn, hi⟩ k)

theorem start_elem (K : Kit) (lo hi : U64) (ticks : List (U64 × U64)) (reqs : List Request) : ElemConf K (SrvConf.start lo hi ticks reqs).db := by
  refine ⟨fun i S x w p e1 e2 => ?_, fun t ph e => by simp [SrvConf.start, FConf.start] at e⟩
  rcases i with _ | i
  · simp only [SrvConf.start, FConf.start, List.getElem?_cons_zero, Option.some.injEq] at e1
    subst e1
    simp [Sys.init] at e2
  · simp [SrvConf.start, FConf.start] at e1

theorem start_bounded (lo hi : U64) (ticks : List (U64 × U64)) (reqs : List Request) : Bounded ticks.length reqs.length (SrvConf.start lo hi ticks reqs) := by
  have hlk : LK (swapsTodo (ticks.map fun w => DbOp.swap w.1 w.2)) (SrvConf.start lo hi ticks reqs).db := by
    refine LK.start lo hi (progs := fun u => if u = 0 then ticks.map fun w => .swap w.1 w.2 else []) ?_
    intro u lo hi hm
    by_contra hu
    rw [if_neg hu] at hm
    cases hm
  have e : swapsTodo (ticks.map fun w => DbOp.swap w.1 w.2) = ticks.length := by
    unfold swapsTodo
    rw [List.filter_eq_self.mpr, List.length_map]
    intro x hx
    obtain ⟨w, -, rfl⟩ := List.mem_map.mp hx
    rfl
  rw [e] at hlk
  refine ⟨⟨hlk, rfl, fun t h0 _ => ⟨rfl, by simp [SrvConf.start, FConf.start, h0]⟩, fun p hp => (by cases hp), fun h => absurd rfl h, by simp [SrvConf.start]⟩,
    by simp [SrvConf.start, FConf.start, pushed]⟩

theorem start_kept88 (ms : Nat → Member) (kv : KV) : Kept88 ms (Fleet.start ms kv) := ⟨fun _ => start_elem _ _ _ _ _, fun _ => start_bounded _ _ _ _⟩

theorem start_alone {ms : Nat → Member} {N : Nat} {kv : KV} {ops : List FleetOp} (ha : Apart ms N kv ops) {n : Nat} (hn : n < N) (hst : (ms n).kit.st = .sled) :
    Alone ms (Fleet.start ms kv) n (SrvConf.start (ms n).lo (ms n).hi (ms n).ticks (ms n).reqs) := by
  refine ⟨seen_eq hst fun i S hS _ => ?_, fun i k _ hi => ha.clean n i k ⟨hn, hi⟩⟩
  rcases i with _ | i
  · simp only [Fleet.start, SrvConf.start, FConf.start, List.getElem?_cons_zero, Option.some.injEq] at hS
    subst hS
    funext k
    exact (ha.clean n 0 k ⟨hn, Nat.zero_le _⟩).symm
  · simp [Fleet.start, SrvConf.start, FConf.start] at hS

end Verif
