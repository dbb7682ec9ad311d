import Verif.Lemmas.DbChunks
import Verif.Lemmas.ConcRead
namespace Verif
open List

/-! ### A query next to the swap thread -/

/-- What is left of a process after `n` steps. -/
def Proc.rest {σ α : Type} : Nat → Proc σ α → σ → Proc σ α
  | 0, p, _ => p
  | _ + 1, .ret a, _ => .ret a
  | n + 1, .act u k, s => Proc.rest n (k s) (u s)

theorem upTo_add {σ α : Type} (i j : Nat) (w : Proc σ α) (s : σ) : (w.rest i s).upTo j (w.upTo i s) = w.upTo (i + j) s := by
  induction i generalizing w s with
  | zero => rw [Nat.zero_add]; rfl
  | succ i ih =>
    cases w with
    | ret a => cases j <;> (rw [Nat.succ_add]; rfl)
    | act u k => rw [Nat.succ_add]; exact ih (k s) (u s)

theorem interleave_ret {σ α β : Type} (sched : List Bool) (b : β) (w : Proc σ α) (s : σ) : (interleave sched (.ret b) w s).1 = .ret b := by
  induction sched generalizing w s with
  | nil => rfl
  | cons x sched ih =>
    cases x with
    | true =>
      cases w with
      | ret a => exact ih _ _
      | act u k => exact ih _ _
    | false => exact ih _ _

theorem interleave_get {σ α β γ : Type} (sched : List Bool) {f : σ → γ} {k : γ → Proc σ β} (w : Proc σ α) (s : σ) {b : β}
    (h : (interleave sched (Proc.get f k) w s).1 = .ret b) :
    ∃ i sched', (interleave sched' (k (f (w.upTo i s))) (w.rest i s) (w.upTo i s)).1 = .ret b := by
  induction sched generalizing w s with
  | nil => simp [interleave, Proc.get] at h
  | cons x sched ih =>
    cases x with
    | true =>
      cases w with
      | ret a => exact ih _ _ h
      | act u kw =>
        obtain ⟨i, sched', h'⟩ := ih (kw s) (u s) h
        exact ⟨i + 1, sched', h'⟩
    | false => exact ⟨0, sched, h⟩

/-- All chunks a run of swaps goes through, oldest first. -/
def allChunks (s0 : DbState) (news : List View) : List View := s0.secondary ++ s0.current :: news

theorem swaps_upTo (news : List View) (s0 : DbState) (n : Nat) :
    (allChunks s0 news)[s0.secondary.length + min n (2 * news.length) / 2]? = some ((swapsProc news).upTo n s0).current ∧
    ((swapsProc news).upTo n s0).secondary = (allChunks s0 news).take (s0.secondary.length + (min n (2 * news.length) + 1) / 2) := by
  induction news generalizing s0 n with
  | nil =>
    have : (swapsProc []).upTo n s0 = s0 := by cases n <;> rfl
    rw [this]
    simp [allChunks]
  | cons v vs ih =>
    match n with
    | 0 => simp [allChunks, Proc.upTo]
    | 1 =>
      have e : (swapsProc (v :: vs)).upTo 1 s0 = { s0 with secondary := s0.secondary ++ [s0.current] } := rfl
      have m : min 1 (2 * (v :: vs).length) = 1 := by simp; omega
      rw [e, m]
      refine ⟨by simp [allChunks], ?_⟩
      simp [allChunks, List.take_append, List.take_of_length_le]
    | n + 2 =>
      have e : (swapsProc (v :: vs)).upTo (n + 2) s0 = (swapsProc vs).upTo n ⟨v, s0.secondary ++ [s0.current]⟩ := rfl
      have m : min (n + 2) (2 * (v :: vs).length) = min n (2 * vs.length) + 2 := by simp only [List.length_cons]; omega
      have hL : allChunks s0 (v :: vs) = allChunks ⟨v, s0.secondary ++ [s0.current]⟩ vs := by simp [allChunks]
      obtain ⟨h1, h2⟩ := ih ⟨v, s0.secondary ++ [s0.current]⟩ n
      rw [e, m, hL]
      simp only [List.length_append, List.length_cons, List.length_nil] at h1 h2
      have e1 : s0.secondary.length + (min n (2 * vs.length) + 2) / 2 = s0.secondary.length + 1 + min n (2 * vs.length) / 2 := by omega
      have e2 : s0.secondary.length + (min n (2 * vs.length) + 2 + 1) / 2 = s0.secondary.length + 1 + (min n (2 * vs.length) + 1) / 2 := by omega
      rw [e1, e2]
      exact ⟨h1, h2⟩

/-- What a query returns next to the swap thread: the merge over the first `n` chunks as older chunks and chunk `k` as the
current one, where either exactly the first `k` chunks are seen as older ones or also chunk `k` itself. -/
theorem query_swap (H : Hash) (q : Labels) (a b : U64) (news : List View) (s0 : DbState) (sched : List Bool)
    {res : Res (List (Labels × List TimePoint))} (h : (interleave sched (dbQueryProc H q a b) (swapsProc news) s0).1 = .ret res) :
    ∃ k n cur, s0.secondary.length ≤ k ∧ k ≤ n ∧ (allChunks s0 news)[k]? = some cur ∧ n ≤ (allChunks s0 news).length ∧
      res = dbQuery H cur ((allChunks s0 news).take n) q a b := by
  unfold dbQueryProc at h
  obtain ⟨i, sched', h1⟩ := interleave_get sched (swapsProc news) s0 h
  obtain ⟨c1, -⟩ := swaps_upTo news s0 i
  have hlenL : (allChunks s0 news).length = s0.secondary.length + 1 + news.length := by simp [allChunks]; omega
  rcases hm : queryCurrent H ((swapsProc news).upTo i s0).current q a b with _ | m
  · rw [hm] at h1
    rw [interleave_ret] at h1
    refine ⟨_, _, _, ?_, le_refl _, c1, ?_, ?_⟩
    · omega
    · rw [hlenL]; omega
    · unfold dbQuery; rw [hm]; cases h1; rfl
  · rw [hm] at h1
    obtain ⟨j, sched'', h2⟩ := interleave_get sched' _ _ h1
    rw [upTo_add] at h2
    obtain ⟨-, c2⟩ := swaps_upTo news s0 (i + j)
    refine ⟨_, s0.secondary.length + (min (i + j) (2 * news.length) + 1) / 2, _, ?_, ?_, c1, ?_, ?_⟩
    · omega
    · omega
    · rw [hlenL]; omega
    · unfold dbQuery
      rw [hm, ← c2]
      simp only []
      rcases hr : querySecondary H q a b ((swapsProc news).upTo (i + j) s0).secondary.reverse m with _ | m'
      · rw [hr, interleave_ret] at h2; cases h2; rfl
      · rw [hr, interleave_ret] at h2; cases h2; rfl

/-- The old chunks are all among those merged. -/
theorem query_swap_covers {s0 : DbState} {news : List View} {k n : Nat} {cur : View} (h1 : s0.secondary.length ≤ k) (h2 : k ≤ n)
    (h3 : (allChunks s0 news)[k]? = some cur) : (s0.secondary ++ [s0.current]).Sublist ((allChunks s0 news).take n ++ [cur]) := by
  have hL : allChunks s0 news = (s0.secondary ++ [s0.current]) ++ news := by simp [allChunks]
  by_cases hn : n = s0.secondary.length
  · have hk : k = s0.secondary.length := by omega
    subst hn
    rw [hk] at h3
    simp only [allChunks, List.getElem?_append_right (Nat.le_refl _), Nat.sub_self, List.getElem?_cons_zero, Option.some.injEq] at h3
    rw [← h3]
    simp [allChunks]
  · have : (s0.secondary ++ [s0.current]).Sublist ((allChunks s0 news).take n) := by
      rw [hL, List.take_append, List.take_of_length_le (by simp; omega)]
      exact List.sublist_append_left _ _
    exact this.trans (List.sublist_append_left _ _)

theorem sublist_flatMap {α β : Type} {l l' : List α} (h : l.Sublist l') (f : α → List β) : (l.flatMap f).Sublist (l'.flatMap f) := by
  induction h with
  | slnil => exact List.Sublist.refl _
  | cons a _ ih => rw [List.flatMap_cons]; exact ih.trans (List.sublist_append_right _ _)
  | cons_cons a _ ih => rw [List.flatMap_cons, List.flatMap_cons]; exact (List.Sublist.refl _).append ih

end Verif
