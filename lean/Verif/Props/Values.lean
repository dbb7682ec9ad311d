import Verif.Lemmas.Values
import Verif.Props.Unordered
/-! Property C93: labels of any content. -/
namespace Verif
open List

theorem lax_history {B : BinSearch} (hB : Careful B) {H : Hash} (hH : H.Good fun _ => True) (sn : Snappy) (rt : PbRt) (hcut : CutsAtAscii rt.utf8) (P : Paths) (hP : P.read ≠ P.write)
    (base : Str) (hb : ∀ b ∈ base, isCont b = false) (size t0 : U64) (es : List HostEvent) (hs : List Happening) (hm : Forall₂ (Means sn rt.utf8 P) es hs)
    (hp : ∀ e ∈ hs, Lax rt e) (hlen : sent hs < 2 ^ 64 - 1) (xs : List (Option Response)) (h' : Host)
    (hrun : (Host.fresh size t0).run B H (pbFormats sn rt) P base size es = (xs, h')) :
    xs.length = hs.length ∧ ∀ (i : Nat) (hi : i < hs.length) (hx : i < xs.length),
      AnsweredLax sn rt.utf8 (hs.take i) ((Site.fresh size t0).after size (hs.take i)) hs[i] xs[i] := by
  obtain ⟨xs', h'', e1, e2, e3⟩ := (fresh_saneHost rt.utf8 size t0).run hB hH hcut sn hP hb hm hp (by simpa using hlen)
  rw [hrun] at e1
  simp only [Prod.mk.injEq] at e1
  obtain ⟨rfl, rfl⟩ := e1
  exact ⟨e2, fun i hi hx => by simpa using e3 i hi hx⟩

/-- C93, what holds for every read: through any history of requests, ticks and restarts - label values of any content, label names of any
content except that none begins with `R`, any order of samples, any clock - a running server answers every read of ranges that are not inverted
by 200, every list of labels is in the answer once, and every sample in the answer was sent in an earlier write request, with labels that are
spelled (as `name=value` with commas) like those it is reported under. (Missing: with the very same labels - see C93_violated_confuses; that
what was written is reported - see C93_violated_hides.) -/
theorem C93_partial_answered (B : BinSearch) (hB : Careful B) (H : Hash) (hH : H.Good fun _ => True) (sn : Snappy) (rt : PbRt) (hcut : CutsAtAscii rt.utf8) (P : Paths)
    (hP : P.read ≠ P.write) (base : Str) (hb : ∀ b ∈ base, isCont b = false) (size t0 : U64) (es : List HostEvent) (hs : List Happening)
    (hm : Forall₂ (Means sn rt.utf8 P) es hs) (hp : ∀ e ∈ hs, Lax rt e) (hlen : sent hs < 2 ^ 64 - 1) (xs : List (Option Response)) (h' : Host)
    (hrun : (Host.fresh size t0).run B H (pbFormats sn rt) P base size es = (xs, h'))
    (j : Nat) (qs : List PQuery) (hj : hs[j]? = some (.call (.read qs))) (hup : ((Site.fresh size t0).after size (hs.take j)).up = true) :
    ∃ body out, xs[j]? = some (some ⟨200, body⟩) ∧ sn.decompress body = some out ∧
      (out.length < 2 ^ 32 → ∃ rs, (∀ m, IsResponse rt.utf8 m out ↔ m = rs) ∧ rs.length = qs.length ∧
      ∀ r ∈ rs, (r.map (·.labels)).Nodup ∧ ∀ y ∈ r, y.samples ≠ [] ∧ ∀ z ∈ y.samples,
        ∃ i m ser x, i < j ∧ hs[i]? = some (.call (.write m)) ∧ ser ∈ m ∧ x ∈ ser.samples ∧ spelled (sortLabels ser.labels) = spelled y.labels ∧ z = asReported x.point) := by
  obtain ⟨hlx, hall⟩ := lax_history hB hH sn rt hcut P hP base hb size t0 es hs hm hp hlen xs h' hrun
  obtain ⟨hj1, hj2⟩ := List.getElem?_eq_some_iff.mp hj
  have aj := hall j hj1 (by omega)
  rw [hj2] at aj
  simp only [AnsweredLax, if_pos hup] at aj
  obtain ⟨body, out, a1, a2, rs, a3, a4, a5⟩ := aj
  refine ⟨body, out, List.getElem?_eq_some_iff.mpr ⟨by omega, a1⟩, a2, fun hl => ⟨rs, a5 hl, a3, fun r hr => ⟨(a4 r hr).1, fun y hy => ?_⟩⟩⟩
  obtain ⟨b1, b2⟩ := (a4 r hr).2 y hy
  refine ⟨b1, fun z hz => ?_⟩
  obtain ⟨p, ⟨m, ser, x, c1, c2, c3, c4, rfl⟩, rfl⟩ := b2 z hz
  obtain ⟨i, hi, e⟩ := List.getElem_of_mem c1
  rw [List.length_take] at hi
  rw [List.getElem_take] at e
  exact ⟨i, m, ser, x, by omega, List.getElem?_eq_some_iff.mpr ⟨by omega, e⟩, c2, c3, c4, rfl⟩

/-- C93, what holds for every write: the answer does not depend on the labels. It is 500 if some sample of the request lies on the border of the
current window, else 200. -/
theorem C93_partial_accepted (B : BinSearch) (hB : Careful B) (H : Hash) (hH : H.Good fun _ => True) (sn : Snappy) (rt : PbRt) (hcut : CutsAtAscii rt.utf8) (P : Paths)
    (hP : P.read ≠ P.write) (base : Str) (hb : ∀ b ∈ base, isCont b = false) (size t0 : U64) (es : List HostEvent) (hs : List Happening)
    (hm : Forall₂ (Means sn rt.utf8 P) es hs) (hp : ∀ e ∈ hs, Lax rt e) (hlen : sent hs < 2 ^ 64 - 1) (xs : List (Option Response)) (h' : Host)
    (hrun : (Host.fresh size t0).run B H (pbFormats sn rt) P base size es = (xs, h'))
    (j : Nat) (m : List PSeries) (hj : hs[j]? = some (.call (.write m))) (hup : ((Site.fresh size t0).after size (hs.take j)).up = true) :
    xs[j]? = some (some ⟨if ∃ ser ∈ m, Refused ((Site.fresh size t0).after size (hs.take j)).g.cur ser then 500 else 200, []⟩) := by
  obtain ⟨hlx, hall⟩ := lax_history hB hH sn rt hcut P hP base hb size t0 es hs hm hp hlen xs h' hrun
  obtain ⟨hj1, hj2⟩ := List.getElem?_eq_some_iff.mp hj
  have aj := hall j hj1 (by omega)
  rw [hj2] at aj
  simp only [AnsweredLax, Answered, if_pos hup] at aj
  exact List.getElem?_eq_some_iff.mpr ⟨by omega, aj⟩

/-! ### What goes wrong -/

/-- A series with samples of value 1.0. -/
def vaSer (ls : Labels) (ts : List Int) : PSeries := ⟨ls, ts.map fun t => ⟨0x3ff0000000000000#64, t⟩⟩
/-- A query for one label. -/
def vaAsk (l : Label) : PQuery := ⟨0, 1000, [⟨.eq, l.key, l.value⟩]⟩
/-- A request for each series, then a read. -/
def vaRun (ws : List PSeries) (l : Label) : List (Option Response) :=
  ((Host.fresh 1000#64 100#64).run stdBinSearch idealHash (pbFormats exSnappy exRt) ⟨[114#8], [119#8]⟩ [100#8] 1000#64
    ((ws.map fun s => .request ⟨[119#8], some (encWrite [s])⟩) ++ [.request ⟨[114#8], some (encRead [vaAsk l])⟩])).1
/-- A response with these series. -/
def vaBody (r : List (Labels × List Int)) : Str := (pbFormats exSnappy exRt).respond [r.map fun e => vaSer e.1 e.2]

theorem vaSer_wire (ls : Labels) (ts : List Int) : wireSeries (vaSer ls ts) = vaSer ls ts := by
  unfold wireSeries vaSer
  simp only [List.map_map, PSeries.mk.injEq, true_and]
  apply List.map_congr_left
  intro t _
  rfl

theorem vaSer_ok (ls : Labels) (ts : List Int) (h : ∀ t ∈ ts, I64 t) : SeriesOk exRt.utf8 (vaSer ls ts) := by
  refine ⟨fun _ _ => ⟨rfl, rfl⟩, ?_⟩
  intro x hx
  obtain ⟨t, ht, rfl⟩ := List.mem_map.mp hx
  exact h t ht

/-- What such a response says. -/
theorem vaBody_reads (r : List (Labels × List Int)) (h : ∀ e ∈ r, ∀ t ∈ e.2, I64 t) (hb : (encResponse [r.map fun e => vaSer e.1 e.2]).length < 2 ^ 32) :
    ∃ out, exSnappy.decompress (vaBody r) = some out ∧ ∀ m, IsResponse exRt.utf8 m out ↔ m = [r.map fun e => vaSer e.1 e.2] := by
  obtain ⟨out, h1, h2⟩ := C60_response_partial exSnappy exRt [r.map fun e => vaSer e.1 e.2] (by
    intro x hx s hs
    simp only [List.mem_singleton] at hx; subst hx
    obtain ⟨e, he, rfl⟩ := List.mem_map.mp hs
    exact vaSer_ok _ _ (h e he)) hb
  refine ⟨out, h1, fun m => (h2 m).trans ?_⟩
  rw [List.map_singleton, List.map_map]
  have : (wireSeries ∘ fun e : Labels × List Int => vaSer e.1 e.2) = fun e => vaSer e.1 e.2 := funext fun e => vaSer_wire _ _
  rw [this]

/-- C93 is false: `{a="1"}` is found by `a="1"`. After a write of another series with the same label and a comma in a value, which is answered
by 200, neither of the two is found any more. -/
theorem C93_violated_hides :
    vaRun [vaSer [lbl "a" "1"] [200]] (lbl "a" "1") = [some ⟨200, []⟩, some ⟨200, vaBody [([lbl "a" "1"], [200])]⟩] ∧
    vaRun [vaSer [lbl "a" "1"] [200], vaSer [lbl "a" "1", lbl "b" "x,y"] [300]] (lbl "a" "1") = [some ⟨200, []⟩, some ⟨200, []⟩, some ⟨200, vaBody []⟩] ∧
    (∃ out, exSnappy.decompress (vaBody [([lbl "a" "1"], [200])]) = some out ∧
      ∀ m, IsResponse exRt.utf8 m out ↔ m = [[vaSer [lbl "a" "1"] [200]]]) ∧
    ∃ out, exSnappy.decompress (vaBody []) = some out ∧ ∀ m, IsResponse exRt.utf8 m out ↔ m = [[]] :=
  ⟨by decide +kernel, by decide +kernel, vaBody_reads _ (by unfold I64; decide +kernel) (by decide +kernel), vaBody_reads _ (by unfold I64; decide +kernel) (by decide +kernel)⟩

/-- C93 is false: the samples of `{a="1", b="2"}` and of `{a="1,b=2"}` are reported as one series. -/
theorem C93_violated_confuses :
    vaRun [vaSer [lbl "a" "1", lbl "b" "2"] [200], vaSer [lbl "a" "1,b=2"] [300]] (lbl "a" "1") =
      [some ⟨200, []⟩, some ⟨200, []⟩, some ⟨200, vaBody [([lbl "a" "1", lbl "b" "2"], [200, 300])]⟩] ∧
    ∃ out, exSnappy.decompress (vaBody [([lbl "a" "1", lbl "b" "2"], [200, 300])]) = some out ∧
      ∀ m, IsResponse exRt.utf8 m out ↔ m = [[vaSer [lbl "a" "1", lbl "b" "2"] [200, 300]]] :=
  ⟨by decide +kernel, vaBody_reads _ (by unfold I64; decide +kernel) (by decide +kernel)⟩

/-- C93 is false: with the same two series written in the other order, `{a="1", b="2"}` is answered by 200 and not found by its labels at all. -/
theorem C93_violated_lost :
    vaRun [vaSer [lbl "a" "1,b=2"] [200], vaSer [lbl "a" "1", lbl "b" "2"] [300]] (lbl "a" "1") =
      [some ⟨200, []⟩, some ⟨200, []⟩, some ⟨200, vaBody []⟩] ∧
    ∃ out, exSnappy.decompress (vaBody []) = some out ∧ ∀ m, IsResponse exRt.utf8 m out ↔ m = [[]] :=
  ⟨by decide +kernel, vaBody_reads _ (by unfold I64; decide +kernel) (by decide +kernel)⟩

/-- The condition on names in C93_partial_answered is needed: a sample of `{Ra="1", b="2"}` is reported under other labels that are not spelled
like its own. -/
theorem C93_violated_stranger :
    vaRun [vaSer [lbl "a" "1,b=2", lbl "c" "3"] [200], vaSer [lbl "Ra" "1", lbl "b" "2"] [300]] (lbl "c" "3") =
      [some ⟨200, []⟩, some ⟨200, []⟩, some ⟨200, vaBody [([lbl "a" "1", lbl "b" "2", lbl "c" "3"], [200, 300])]⟩] ∧
    ∃ out, exSnappy.decompress (vaBody [([lbl "a" "1", lbl "b" "2", lbl "c" "3"], [200, 300])]) = some out ∧
      ∀ m, IsResponse exRt.utf8 m out ↔ m = [[vaSer [lbl "a" "1", lbl "b" "2", lbl "c" "3"] [200, 300]]] :=
  ⟨by decide +kernel, vaBody_reads _ (by unfold I64; decide +kernel) (by decide +kernel)⟩

/-! ### The hypotheses of the theorems hold -/

/-- States of a decoder of UTF-8 (RFC 3629): at the start of a character, `1`-`3` continuation bytes missing, or two or three missing of which
the first has a restricted range. -/
inductive U8 | start | one | two | three | e0 | ed | f0 | f4
deriving DecidableEq

/-- One byte. -/
def U8.step (q : U8) (b : Byte) : Option U8 :=
  let n := b.toNat
  let cont (lo hi : Nat) (q' : U8) : Option U8 := if lo ≤ n ∧ n ≤ hi then some q' else none
  match q with
  | .start =>
    if n < 0x80 then some .start else if 0xc2 ≤ n ∧ n ≤ 0xdf then some .one else if n = 0xe0 then some .e0 else if n = 0xed then some .ed
    else if 0xe1 ≤ n ∧ n ≤ 0xef then some .two else if n = 0xf0 then some .f0 else if 0xf1 ≤ n ∧ n ≤ 0xf3 then some .three
    else if n = 0xf4 then some .f4 else none
  | .one => cont 0x80 0xbf .start
  | .two => cont 0x80 0xbf .one
  | .three => cont 0x80 0xbf .two
  | .e0 => cont 0xa0 0xbf .one
  | .ed => cont 0x80 0x9f .one
  | .f0 => cont 0x90 0xbf .two
  | .f4 => cont 0x80 0x8f .two

/-- A string. -/
def U8.run (q : U8) : Str → Option U8
  | [] => some q
  | b :: s => (q.step b).bind fun q' => q'.run s

/-- Valid UTF-8. -/
def utf8Valid (s : Str) : Bool := decide (U8.start.run s = some .start)

theorem U8.run_append (q : U8) (s t : Str) : q.run (s ++ t) = (q.run s).bind fun q' => q'.run t := by
  induction s generalizing q with
  | nil => rfl
  | cons b s ih =>
    rw [List.cons_append, U8.run, U8.run]
    cases q.step b with
    | none => rfl
    | some q' => exact ih q'

/-- The condition on strings holds of UTF-8. -/
theorem utf8Valid_cuts : CutsAtAscii utf8Valid := by
  have key : ∀ (b : Byte), U8.start.step b = some .start → (∀ q, q ≠ .start → U8.step q b = none) → ∀ s t, utf8Valid (s ++ b :: t) = true ↔ utf8Valid s = true ∧ utf8Valid t = true := by
    intro b h1 h2 s t
    unfold utf8Valid
    simp only [decide_eq_true_eq]
    rw [U8.run_append]
    rcases hq : U8.start.run s with _ | q
    · simp
    · by_cases h : q = .start
      · subst h; simp [U8.run, h1]
      · simp [U8.run, h2 q h, h]
  intro s t
  exact ⟨key 44#8 (by decide) (by intro q hq; cases q <;> first | exact absurd rfl hq | decide) s t,
    key 61#8 (by decide) (by intro q hq; cases q <;> first | exact absurd rfl hq | decide) s t⟩

example : utf8Valid [0xc3#8, 0xa9#8, 44#8] = true ∧ utf8Valid [0xc3#8, 44#8] = false := by decide

/-- A runtime with UTF-8. -/
def utf8Rt : PbRt := ⟨utf8Valid, fun _ => none, fun _ _ => false, by simp, rfl⟩

/-- The values `x,y` and `é=,` are written, then read. -/
def vaStory : List HostEvent :=
  [.request ⟨[119#8], some (encWrite [vaSer [lbl "a" "1", lbl "b" "x,y"] [200], vaSer [⟨[97#8], [0xc3#8, 0xa9#8, 61#8, 44#8]⟩] [400, 300]])⟩,
    .restart id (fun _ => 5000#64) 50#64, .request ⟨[114#8], some (encRead [vaAsk (lbl "a" "1")])⟩]
def vaSaid : List Happening :=
  [.call (.write [vaSer [lbl "a" "1", lbl "b" "x,y"] [200], vaSer [⟨[97#8], [0xc3#8, 0xa9#8, 61#8, 44#8]⟩] [400, 300]]), .restart id (fun _ => 5000#64) 50#64,
    .call (.read [vaAsk (lbl "a" "1")])]

theorem vaStory_means : Forall₂ (Means exSnappy utf8Rt.utf8 ⟨[114#8], [119#8]⟩) vaStory vaSaid := by
  refine .cons ⟨rfl, _, _, rfl, rfl, ?_⟩ (.cons ⟨rfl, rfl, rfl⟩ (.cons ⟨rfl, _, _, rfl, rfl, ?_⟩ .nil))
  · have := encWrite_is (utf8 := utf8Rt.utf8) (m := [vaSer [lbl "a" "1", lbl "b" "x,y"] [200], vaSer [⟨[97#8], [0xc3#8, 0xa9#8, 61#8, 44#8]⟩] [400, 300]]) (by
      intro s hs
      simp only [List.mem_cons, List.not_mem_nil, or_false] at hs
      rcases hs with rfl | rfl
      · exact ⟨by unfold LabelOk; decide +kernel, by unfold I64; decide +kernel⟩
      · exact ⟨by unfold LabelOk; decide +kernel, by unfold I64; decide +kernel⟩) (by decide +kernel)
    rw [List.map_cons, List.map_cons, vaSer_wire, vaSer_wire] at this
    exact this
  · exact encRead_is (by
      intro q hq
      simp only [List.mem_singleton] at hq; subst hq
      exact ⟨by unfold I64; decide, by unfold I64; decide, by decide +kernel⟩) (by decide +kernel)

theorem vaStory_lax : ∀ e ∈ vaSaid, Lax utf8Rt e := by
  intro e he
  simp only [vaSaid, List.mem_cons, List.not_mem_nil, or_false] at he
  rcases he with rfl | rfl | rfl
  · show ∀ ser ∈ [_, _], ∀ l ∈ PSeries.labels ser, l.key.head? ≠ some 82#8
    decide +kernel
  · exact fun l => List.Perm.refl l
  · exact ⟨by simp, by intro q hq; simp only [List.mem_singleton] at hq; subst hq; decide⟩

example (xs : List (Option Response)) (h' : Host) (hrun : (Host.fresh 1000#64 100#64).run stdBinSearch idealHash (pbFormats exSnappy utf8Rt) ⟨[114#8], [119#8]⟩ [100#8] 1000#64
      vaStory = (xs, h')) :=
  And.intro (C93_partial_answered stdBinSearch stdBinSearch_careful idealHash (idealHash_good _) exSnappy utf8Rt utf8Valid_cuts ⟨[114#8], [119#8]⟩ (by decide) [100#8] (by decide) 1000#64 100#64
    vaStory vaSaid vaStory_means vaStory_lax (by decide +kernel) xs h' hrun 2 [vaAsk (lbl "a" "1")] rfl (by decide +kernel))
  (C93_partial_accepted stdBinSearch stdBinSearch_careful idealHash (idealHash_good _) exSnappy utf8Rt utf8Valid_cuts ⟨[114#8], [119#8]⟩ (by decide) [100#8] (by decide) 1000#64 100#64
    vaStory vaSaid vaStory_means vaStory_lax (by decide +kernel) xs h' hrun 0 _ rfl (by decide +kernel))

end Verif
