import Verif.Lemmas.KitCrash
import Verif.Props.Db
namespace Verif
open List

/-! ### A database over chunks of any kit -/

/-- The chunk with that window after these inserts. -/
def kitChunk (B : Kit) (d : Desc) : SChunk := (newSled d.lo d.hi).insertAll (kitComp B) d.h

theorem answer_incr (b : Backend) {d : Desc} (h : ∀ ls, SIncr (pointsFor d.h ls)) (q : Labels) (x y : U64) :
    d.answer b.accepts q x y = d.answer sledAccepts q x y := by
  unfold Desc.answer
  have e : matched b.accepts d.h q = matched sledAccepts d.h q := by
    unfold matched
    split
    · rfl
    apply List.map_congr_left
    intro s _
    rw [keepBy_incr b (h _), keepBy_sled]
  rw [e]

/-- The answer of a chunk. -/
theorem kit_view (B : Kit) {d : Desc} (hf : Fine d.h) (hincr : ∀ ls, SIncr (pointsFor (insideOnly d.lo d.hi d.h) ls)) {q : Labels} (hq : ∀ l ∈ q, WFLabel l)
    {a b : U64} (hab : a.toNat ≤ b.toNat) : ((kitChunk B d).view (kitComp B)).query q a b ≠ .panic ∧
      okSeries (((kitChunk B d).view (kitComp B)).query q a b) = (made d).answer sledAccepts q a b ∧
      (if ((kitChunk B d).view (kitComp B)).within a b then okSeries (((kitChunk B d).view (kitComp B)).query q a b) else []) =
        (made d).answer sledAccepts q a b := by
  have hlen : (made d).h.length < 2 ^ 64 - 1 := by
    have := insideOnly_length d.lo d.hi d.h
    have := hf.len
    show (insideOnly d.lo d.hi d.h).length < _
    omega
  have hi' : ∀ ls, SIncr (keepBy B.st.accepts (pointsFor (made d).h ls)) := fun ls => by
    have h : SIncr (pointsFor (made d).h ls) := hincr ls
    rw [keepBy_incr _ h]; exact h
  rw [← answer_incr _ hincr q a b]
  exact view_answer (d := made d) (kit_rep B d.lo d.hi hf) hlen (fun w hw => hf.wf w (List.mem_filter.mp hw).1) hi' hq hab

/-- As `C40_sled`. -/
theorem kit_merged (B : Kit) (H : Hash) (secondary : List Desc) (cur : Desc) (hf : ∀ d ∈ secondary ++ [cur], Fine d.h)
    (hincr : ∀ d ∈ secondary ++ [cur], ∀ ls, SIncr (pointsFor (insideOnly d.lo d.hi d.h) ls)) (q : Labels) (hq : ∀ l ∈ q, WFLabel l)
    (a b : U64) (hab : a.toNat ≤ b.toNat)
    (hg : H.Good fun ls => ∃ d ∈ secondary ++ [cur], ∃ s ∈ (made d).answer sledAccepts q a b, s.labels = ls) :
    ∃ r, dbQuery H ((kitChunk B cur).view (kitComp B)) (secondary.map fun d => (kitChunk B d).view (kitComp B)) q a b = .ok r ∧
      IsMerge ((secondary ++ [cur]).map fun d => (made d).answer sledAccepts q a b) r := by
  have hlen : ∀ d ∈ secondary ++ [cur], (made d).h.length < 2 ^ 64 - 1 := fun d hd => by
    have := insideOnly_length d.lo d.hi d.h
    have := (hf d hd).len
    show (insideOnly d.lo d.hi d.h).length < _
    omega
  have hi' : ∀ d ∈ secondary ++ [cur], ∀ ls, SIncr (keepBy B.st.accepts (pointsFor (made d).h ls)) := fun d hd ls => by
    have h : SIncr (pointsFor (made d).h ls) := hincr d hd ls
    rw [keepBy_incr _ h]; exact h
  have hwf : ∀ d ∈ secondary ++ [cur], ∀ w ∈ (made d).h, WFSet w.1 := fun d hd w hw => (hf d hd).wf w (List.mem_filter.mp hw).1
  have hv : ∀ d ∈ secondary ++ [cur], _ := fun d hd =>
    view_answer (d := made d) (kit_rep B d.lo d.hi (hf d hd)) (hlen d hd) (hwf d hd) (hi' d hd) hq hab
  have he : ∀ d ∈ secondary ++ [cur], (made d).answer B.st.accepts q a b = (made d).answer sledAccepts q a b := fun d hd =>
    answer_incr _ (hincr d hd) q a b
  exact dbQuery_views H (fun d => (kitChunk B d).view (kitComp B)) (fun d => (made d).answer sledAccepts q a b) secondary cur q a b
    (fun d hd => by rw [← he d hd]; exact hv d hd) (fun d _ => answer_nodup _ _ _ _ _) hg

end Verif
