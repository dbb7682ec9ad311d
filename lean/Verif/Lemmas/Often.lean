import Verif.Spec.Often
import Verif.Lemmas.Unordered
namespace Verif
open List

/-- The points a chunk accepted for a label set. -/
def heldFor (h : Inserts) (ls : Labels) : List TimePoint := (h.filter fun w => decide (sortLabels w.1 = ls)).map (·.2)

theorem queryBy_sub {B : BinSearch} {a b : U64} (l : List Series) {r : List Series} (hr : queryBy B a b l = .ok r) :
    ∀ y ∈ r, ∃ x ∈ l, y.labels = x.labels ∧ y.points <+ x.points := by
  induction l generalizing r with
  | nil => cases hr; simp
  | cons x l ih =>
    rw [queryBy] at hr
    rcases hd : readSeries B x.points a b with d | e | _
    · rw [hd, Res.bind_ok] at hr
      rcases hq : queryBy B a b l with r' | e | _
      · rw [hq, Res.bind_ok] at hr
        have hs : d <+ x.points := by
          unfold readSeries at hd
          split at hd
          · split at hd
            · cases hd
            · unfold trimSeries at hd
              simp only [] at hd
              unfold sliceIncl at hd
              split at hd
              · cases hd
              · split at hd
                · cases hd
                  exact (List.drop_sublist _ _).trans (List.take_sublist _ _)
                · cases hd
          · cases hd
        cases hr
        intro y hy
        split at hy
        · obtain ⟨z, h1, h2⟩ := ih hq y hy; exact ⟨z, by simp [h1], h2⟩
        · rcases List.mem_cons.mp hy with rfl | hy
          · exact ⟨x, by simp, rfl, hs⟩
          · obtain ⟨z, h1, h2⟩ := ih hq y hy; exact ⟨z, by simp [h1], h2⟩
      · rw [hq] at hr; simp [Res.bind] at hr
      · rw [hq] at hr; simp [Res.bind] at hr
    · rw [hd] at hr; simp [Res.bind] at hr
    · rw [hd] at hr; simp [Res.bind] at hr

theorem matched_held {h : Inserts} (hwf : ∀ w ∈ h, WFSet w.1) {q : Labels} {x : Series} (hx : x ∈ matched sledAccepts h q) : x.points = heldFor h x.labels := by
  unfold matched at hx
  split at hx
  · simp at hx
  · obtain ⟨s, hs, rfl⟩ := List.mem_map.mp hx
    simp only [keepBy_sled]
    unfold pointsFor heldFor
    congr 1
    apply List.filter_congr
    intro w hw
    simp only [decide_eq_decide]
    exact ⟨fun h => sortLabels_perm_eq (hwf w hw).distinct h, fun e => perm_of_sortLabels_eq e⟩

theorem answerBy_often {B : BinSearch} {g : Gen} (hwf : ∀ w ∈ g.h, WFSet w.1) {q : Labels} {a b : U64} {y : Series}
    (hy : y ∈ g.answerBy B q a b) : y.points <+ heldFor g.h y.labels := by
  unfold Gen.answerBy at hy
  split at hy
  · rcases hq : queryBy B a b (matched sledAccepts g.h q) with r | e | _
    · rw [hq] at hy
      obtain ⟨x, hx, e, hs⟩ := queryBy_sub _ hq y hy
      rw [e, ← matched_held hwf hx]; exact hs
    · rw [hq] at hy; simp [okSeries] at hy
    · rw [hq] at hy; simp [okSeries] at hy
  · simp at hy

theorem filter_nodup {l : List Series} (h : (l.map (·.labels)).Nodup) (ls : Labels) :
    l.filter (fun s => decide (s.labels = ls)) = [] ∨ ∃ y ∈ l, y.labels = ls ∧ l.filter (fun s => decide (s.labels = ls)) = [y] := by
  induction l with
  | nil => exact .inl rfl
  | cons x l ih =>
    rw [List.map_cons, List.nodup_cons] at h
    by_cases hx : x.labels = ls
    · refine .inr ⟨x, by simp, hx, ?_⟩
      rw [List.filter_cons, if_pos (by simpa using hx), List.filter_eq_nil_iff.mpr]
      intro z hz
      have : z.labels ≠ ls := fun e => h.1 (hx ▸ e ▸ List.mem_map_of_mem (f := fun s : Series => s.labels) hz)
      simpa using this
    · rw [List.filter_cons, if_neg (by simpa using hx)]
      rcases ih h.2 with e | ⟨y, h1, h2, h3⟩
      · exact .inl e
      · exact .inr ⟨y, by simp [h1], h2, h3⟩

theorem flatMap_sublist {α β : Type} {f g : α → List β} (l : List α) (h : ∀ x ∈ l, f x <+ g x) : l.flatMap f <+ l.flatMap g := by
  induction l with
  | nil => exact List.Sublist.refl _
  | cons x l ih => rw [List.flatMap_cons, List.flatMap_cons]; exact (h x (by simp)).append (ih fun y hy => h y (by simp [hy]))

theorem flatMap_sub {α β : Type} {l l' : List α} (h : l <+ l') (f : α → List β) : l.flatMap f <+ l'.flatMap f := by
  induction h with
  | slnil => exact List.Sublist.refl _
  | cons x _ ih => rw [List.flatMap_cons]; exact ih.trans (List.sublist_append_right _ _)
  | cons_cons x _ ih => rw [List.flatMap_cons, List.flatMap_cons]; exact (List.Sublist.refl _).append ih

/-- What is reported for a label set was accepted for it, as often and in this order. -/
theorem merged_often {B : BinSearch} (hB : Careful B) {g : Gens} (hwf : ∀ c ∈ g.all, ∀ w ∈ c.h, WFSet w.1) (q : Labels) {a b : U64} (hab : a.toNat ≤ b.toNat)
    (ls : Labels) : mergedPoints (g.all.map fun c => c.answerBy B q a b) ls <+ g.all.flatMap fun c => heldFor c.h ls := by
  rw [mergedPoints_map]
  refine flatMap_sublist _ fun c hc => ?_
  rcases filter_nodup (answerBy_nodup hB c q hab) ls with e | ⟨y, h1, rfl, e⟩
  · rw [e]; exact List.nil_sublist _
  · rw [e]
    simpa using answerBy_often (hwf c hc) h1

/-! ### What is accepted was sent -/

theorem takeUntil_sublist (c : Gen) (m : List PSeries) : takeUntilRefused c m <+ m := by
  induction m with
  | nil => exact List.Sublist.refl _
  | cons s m ih =>
    rw [takeUntilRefused]
    split
    · exact (List.nil_sublist m).cons_cons s
    · exact ih.cons_cons s

theorem newPoints_held (c : Gen) (m : List PSeries) (ls : Labels) :
    heldFor (newPoints c m) ls <+ m.flatMap fun ser => if sortLabels ser.labels = ls then ser.samples.map Sample.point else [] := by
  induction m with
  | nil => exact List.Sublist.refl _
  | cons s m ih =>
    unfold newPoints at ih ⊢
    unfold heldFor at ih ⊢
    rw [List.flatMap_cons, List.flatMap_cons, List.filter_append, List.map_append]
    refine List.Sublist.append ?_ ih
    by_cases h : sortLabels s.labels = ls
    · rw [if_pos h, List.filter_map, List.map_map]
      have : ((fun x : Labels × TimePoint => x.2) ∘ fun p => (s.labels, p)) = id := rfl
      rw [this, List.map_id]
      exact List.filter_sublist.trans List.filter_sublist
    · rw [if_neg h, List.filter_map, List.filter_eq_nil_iff.mpr]
      · exact List.nil_sublist _
      · intro p _; simpa using h

theorem heldFor_append (h k : Inserts) (ls : Labels) : heldFor (h ++ k) ls = heldFor h ls ++ heldFor k ls := by
  unfold heldFor; rw [List.filter_append, List.map_append]

theorem next_often (size : U64) (s : Site) (e : Happening) (ls : Labels) :
    ((s.next size e).g.all.flatMap fun c => heldFor c.h ls) <+ (s.g.all.flatMap fun c => heldFor c.h ls) ++ sentTo [e] ls := by
  have same : (s.g.all.flatMap fun c => heldFor c.h ls) <+ (s.g.all.flatMap fun c => heldFor c.h ls) ++ sentTo [e] ls := List.sublist_append_left _ _
  cases e with
  | call k =>
    by_cases hu : s.up = true
    · cases k with
      | write m =>
        simp only [Site.next, if_pos hu, Gens.all, List.flatMap_append, List.flatMap_cons, List.flatMap_nil, List.append_nil, heldFor_append, List.append_assoc]
        refine List.Sublist.append (List.Sublist.refl _) (List.Sublist.append (List.Sublist.refl _) ?_)
        rw [sentTo, List.flatMap_cons, List.flatMap_nil, List.append_nil]
        refine (newPoints_held _ _ ls).trans ?_
        exact flatMap_sub (takeUntil_sublist s.g.cur m) _
      | garbage => simpa only [Site.next, if_pos hu] using same
      | read qs => simpa only [Site.next, if_pos hu] using same
      | badRead => simpa only [Site.next, if_pos hu] using same
      | other => simpa only [Site.next, if_pos hu] using same
    · simpa only [Site.next, if_neg hu] using same
  | tick r =>
    by_cases hu : s.up = true
    · simp only [Site.next, if_pos hu, Gens.step, Gens.all, List.flatMap_append, List.flatMap_cons, List.flatMap_nil]
      simp [Gen.new, heldFor, sentTo]
    · simpa only [Site.next, if_neg hu] using same
  | restart o k n =>
    simp only [Site.next, Gens.step, Gens.all, List.map_append, List.map_cons, List.map_nil, List.flatMap_append, List.flatMap_cons, List.flatMap_nil, List.flatMap_map]
    simp [Gen.new, Gen.reopened, heldFor, sentTo]

theorem after_often (size : U64) (hs : List Happening) (s : Site) (ls : Labels) :
    ((s.after size hs).g.all.flatMap fun c => heldFor c.h ls) <+ (s.g.all.flatMap fun c => heldFor c.h ls) ++ sentTo hs ls := by
  induction hs generalizing s with
  | nil => exact List.sublist_append_left _ _
  | cons e hs ih =>
    have h1 := ih (s.next size e)
    have h2 : sentTo (e :: hs) ls = sentTo [e] ls ++ sentTo hs ls := by unfold sentTo; simp
    rw [h2, ← List.append_assoc]
    exact h1.trans ((next_often size s e ls).append (List.Sublist.refl _))

theorem fresh_often (size t0 : U64) (hs : List Happening) (ls : Labels) :
    (((Site.fresh size t0).after size hs).g.all.flatMap fun c => heldFor c.h ls) <+ sentTo hs ls := by
  have h := after_often size hs (Site.fresh size t0) ls
  have : ((Site.fresh size t0).g.all.flatMap fun c => heldFor c.h ls) = [] := by simp [Site.fresh, Gens.all, Gens.fresh, Gen.new, heldFor]
  rwa [this, List.nil_append] at h

end Verif
