import Verif.Lemmas.ServerConcOn
import Verif.Lemmas.Kept
/-! What the running server leaves in its chunks when it is killed. -/
namespace Verif
open List

variable {B : Kit} {H : Hash} {A : List SChunk} {past : Past} {lo hi : U64} {ticks : List (U64 × U64)} {calls : List Call} {n : Nat} {c : SrvConf} {L : List DbOp}

theorem handling_mem {op : DbOp} (h : op ∈ c.handling calls) : c.now.isSome = true ∧ ∃ k, calls[c.sent.length]? = some k ∧ op ∈ k.ops := by
  unfold SrvConf.handling at h
  split at h
  · rename_i hn
    refine ⟨hn, ?_⟩
    rcases hk : calls[c.sent.length]? with _ | k
    · rw [hk] at h; simp at h
    · rw [hk] at h; exact ⟨k, rfl, by simpa using h⟩
  · cases h

theorem write_ops {k : Call} {ls : Labels} {ps : List TimePoint} (h : DbOp.write ls ps ∈ k.ops) :
    ∃ m, k = .write m ∧ ∃ ser ∈ m, ser.labels = ls ∧ ser.samples.map Sample.point = ps := by
  cases k with
  | write m =>
    obtain ⟨s, h1, h2⟩ := List.mem_map.mp h
    simp only [DbOp.write.injEq] at h2
    exact ⟨m, rfl, s, h1, h2⟩
  | read qs => obtain ⟨s, -, e⟩ := List.mem_map.mp h; cases e
  | badRead => cases h
  | other => cases h
  | garbage => cases h

/-- A write request that has been taken up, with a series and a sample of it. -/
def TakenUp (calls : List Call) (c : SrvConf) (ls : Labels) (p : TimePoint) : Prop :=
  ∃ (j : Nat) (m : List PSeries) (ser : PSeries) (x : Sample), (j < c.sent.length ∨ j = c.sent.length ∧ c.now.isSome = true) ∧ calls[j]? = some (.write m) ∧
    ser ∈ m ∧ x ∈ ser.samples ∧ ser.labels = ls ∧ x.point = p

theorem SrvState.keeping (h : SrvState B H A past lo hi ticks calls n c L) (hb : n + 1 < 2 ^ 64 - 1) {i : Nat} {S : FChunk} (hS : c.db.chunks[i]? = some S)
    (hi' : A.length ≤ i) : Keeping B S.store.start_ S.store.end_ S.moment S.store.store := by
  obtain ⟨n', hn, hI⟩ := h.inv
  obtain ⟨todo0, h0⟩ := hI.sys i S hS hi'
  exact (h0.at (hI.logOk h.client.single (by omega) _ _ hS)).holds

theorem SrvState.source (h : SrvState B H A past lo hi ticks calls n c L) {i : Nat} {S : FChunk} (hS : c.db.chunks[i]? = some S) :
    ∀ w ∈ S.started, TakenUp calls c w.1 w.2 := by
  obtain ⟨n', hn, hI⟩ := h.inv
  intro w hw
  rw [hI.started i S hS] at hw
  obtain ⟨e, he, rfl⟩ := List.mem_map.mp hw
  obtain ⟨ps, h1, h2⟩ := hI.own e (List.mem_of_mem_filter he)
  have h3 : DbOp.write e.labels ps ∈ (c.db.threads 1).calls := by
    match ht : e.thread, h1 with
    | 0, h1 => simp [deployed] at h1
    | 1, h1 => exact h1
    | k + 2, h1 => simp [deployed] at h1
  rcases h.begun _ h3 with ⟨j, k, a1, a2, a3⟩ | a
  · obtain ⟨m, rfl, ser, b1, b2, b3⟩ := write_ops a3
    rw [← b3] at h2
    obtain ⟨x, hx, hx'⟩ := List.mem_map.mp h2
    exact ⟨j, m, ser, x, Or.inl a1, a2, b1, hx, b2, hx'⟩
  · obtain ⟨hn, k, a2, a3⟩ := handling_mem a
    obtain ⟨m, rfl, ser, b1, b2, b3⟩ := write_ops a3
    rw [← b3] at h2
    obtain ⟨x, hx, hx'⟩ := List.mem_map.mp h2
    exact ⟨_, m, ser, x, Or.inr ⟨rfl, hn⟩, a2, b1, hx, b2, hx'⟩

theorem SrvState.torn_full (h : SrvState B H A past lo hi ticks calls n c L) {i : Nat} {S : FChunk} (hS : c.db.chunks[i]? = some S) {v : Labels × TimePoint}
    (hv : S.started = S.settled ++ [v]) : c.now.isSome = true ∧ ∃ m, calls[c.sent.length]? = some (.write m) ∧ ∃ ser ∈ m, ser.labels = v.1 ∧
      ∃ x ∈ ser.samples, x.point = v.2 := by
  obtain ⟨n', hn, hI⟩ := h.inv
  obtain ⟨u, pr, hl⟩ : ∃ u pr, S.lock = some (u, v, pr) := by
    unfold Sys.started Sys.settled at hv
    rcases hl : S.lock with _ | ⟨u, w, a | ⟨f, k⟩⟩
    · rw [hl] at hv; have := congrArg List.length hv; simp at this
    · rw [hl] at hv; have := congrArg List.length hv; simp at this
    · rw [hl] at hv
      simp only [List.append_nil, List.append_cancel_left_eq, List.cons.injEq, and_true] at hv
      exact ⟨u, _, by rw [hv]⟩
  obtain ⟨-, hins⟩ := (hI.lock i S hS u v).mp ⟨pr, hl⟩
  have hu : u = 1 := by
    match u with
    | 0 =>
      rcases h.dep.t0 with e | e
      · rw [e] at hins; cases hins
      · rcases hnow : (c.db.threads 0).now with _ | ph
        · rw [hnow] at hins; cases hins
        · rw [hnow] at hins e
          cases ph <;> simp [insOf, fIsSwap] at hins e
    | 1 => rfl
    | k + 2 => rw [(h.dep.idle (k + 2) (by omega)).1] at hins; cases hins
  subst hu
  rcases hnow : (c.db.threads 1).now with _ | ph
  · rw [hnow] at hins; cases hins
  · rw [hnow] at hins
    have hm := h.now ph hnow
    cases ph with
    | inserting ls ps p rest f =>
      simp only [insOf, Option.some.injEq] at hins
      subst hins
      obtain ⟨hn, k, a2, a3⟩ := handling_mem hm
      obtain ⟨m, rfl, ser, b1, b2, b3⟩ := write_ops a3
      obtain ⟨-, lo', hi', -, pre, e, -⟩ := (hI.thr 1).inserting _ _ _ _ _ hnow
      have hp : p ∈ ps := List.mem_of_mem_filter (p := keepPoint lo' hi') (by rw [e]; simp)
      rw [← b3] at hp
      obtain ⟨x, hx, hx'⟩ := List.mem_map.mp hp
      exact ⟨hn, m, a2, ser, b1, b2, x, hx, hx'⟩
    | _ => simp [insOf] at hins

theorem SrvState.torn (h : SrvState B H A past lo hi ticks calls n c L) {i : Nat} {S : FChunk} (hS : c.db.chunks[i]? = some S) {v : Labels × TimePoint}
    (hv : S.started = S.settled ++ [v]) : c.now.isSome = true ∧ ∃ m, calls[c.sent.length]? = some (.write m) ∧ ∃ ser ∈ m, ser.labels = v.1 := by
  obtain ⟨h1, m, h2, ser, h3, h4, -⟩ := h.torn_full hS hv
  exact ⟨h1, m, h2, ser, h3, h4⟩

/-- Points of the sequential database are in the chunks. -/
theorem SrvState.stored (h : SrvState B H A past lo hi ticks calls n c L) {d : Desc} (hd : d ∈ ((SeqDb.fresh lo hi).run L).all) {w : Labels × TimePoint} (hw : w ∈ d.h) :
    ∃ (i : Nat) (S : FChunk), A.length ≤ i ∧ c.db.chunks[i]? = some S ∧ w ∈ S.started ∧ inside S.store.start_ S.store.end_ w.2 = true := by
  obtain ⟨n', hn, hI⟩ := h.inv
  obtain ⟨pre, -, hc⟩ := h.dep.cont
  have hg := h.dep.glen
  rw [SeqDb.behind_run] at hg hc
  obtain ⟨k, hk, rfl⟩ := List.mem_iff_getElem.mp hd
  have hlen : A.length + k < c.db.chunks.length := by
    rw [hI.len, ← hg]
    simp only [SeqDb.all, List.length_append, List.length_replicate, List.length_singleton] at hk ⊢
    omega
  obtain ⟨d', e1, e2, e3, e4⟩ := hc (A.length + k) _ _ (by omega) (by rw [fWin, List.getElem?_eq_getElem hlen]; rfl)
  have hd' : d' = ((SeqDb.fresh lo hi).run L).all[k] := by
    simp only [SeqDb.all] at e1 hk ⊢
    rw [List.append_assoc, List.getElem?_append_right (by simp), List.length_replicate, Nat.add_sub_cancel_left, List.getElem?_eq_getElem hk] at e1
    exact (Option.some.inj e1).symm
  subst hd'
  have hm : w ∈ insideOnly c.db.chunks[A.length + k].store.start_ c.db.chunks[A.length + k].store.end_ (histOf c.db.log (A.length + k)) := by
    rw [e4]; exact List.mem_append_left _ hw
  obtain ⟨m1, m2⟩ := List.mem_filter.mp hm
  exact ⟨_, _, by omega, List.getElem?_eq_getElem hlen, by rw [hI.started _ _ (List.getElem?_eq_getElem hlen)]; exact m1, m2⟩

end Verif
