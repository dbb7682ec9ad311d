import Verif.Lemmas.Often
import Verif.Props.Unordered
import Verif.Props.Bytes
/-! Property C98: reported as often as sent. -/
namespace Verif
open List

/-- C98, for label sets without repetitions (and the other conditions of C75, except on the order of samples): in every answer, every series has
the samples in the order in which they were sent, each at most as often as it was sent for this label set before the read. (Missing: label
sets in which a label is repeated - see C98_violated.) -/
theorem C98_partial_often (B : BinSearch) (hB : Careful B) (H : Hash) (sn : Snappy) (rt : PbRt) (P : Paths) (hP : P.read ≠ P.write) (base : Str)
    (hb : ∀ b ∈ base, isCont b = false) (size t0 : U64) (es : List HostEvent) (hs : List Happening) (hm : Forall₂ (Means sn rt.utf8 P) es hs)
    (hp : ProperAnyAll H rt size (Site.fresh size t0) hs) (hlen : sent hs < 2 ^ 64 - 1) (xs : List (Option Response)) (h' : Host)
    (hrun : (Host.fresh size t0).run B H (pbFormats sn rt) P base size es = (xs, h'))
    (j : Nat) (qs : List PQuery) (hj : hs[j]? = some (.call (.read qs))) (hup : ((Site.fresh size t0).after size (hs.take j)).up = true) :
    ∃ body out, xs[j]? = some (some ⟨200, body⟩) ∧ sn.decompress body = some out ∧
      (out.length < 2 ^ 32 → ∃ rs, (∀ m, IsResponse rt.utf8 m out ↔ m = rs) ∧ rs.length = qs.length ∧
      ∀ r ∈ rs, (r.map (·.labels)).Nodup ∧ ∀ y ∈ r, y.samples <+ (sentTo (hs.take j) y.labels).map asReported) := by
  obtain ⟨hlx, hall⟩ := any_history hB H sn rt P hP base hb size t0 es hs hm hp hlen xs h' hrun
  obtain ⟨hj1, hj2⟩ := List.getElem?_eq_some_iff.mp hj
  have aj := hall j hj1 (by omega)
  rw [hj2] at aj
  have hsound := Site.after_sound_any (hp.take j) (fresh_sound size t0)
  have hord : ∀ q ∈ qs, (asU64 q.start_).toNat ≤ (asU64 q.end_).toNat := by
    have : ∀ (hs : List Happening) (s : Site) (j : Nat), ProperAnyAll H rt size s hs → hs[j]? = some (.call (.read qs)) → (s.after size (hs.take j)).up = true →
        ∀ q ∈ qs, (asU64 q.start_).toNat ≤ (asU64 q.end_).toNat := by
      intro hs
      induction hs with
      | nil => intro s j _ h; simp at h
      | cons e es ih =>
        intro s j hp hj hu
        cases j with
        | zero =>
          simp only [List.getElem?_cons_zero, Option.some.injEq] at hj
          subst hj
          exact fun q hq => ((hp.1 hu).2 q hq).2.1
        | succ j => exact ih _ j hp.2 (by simpa using hj) hu
    exact this hs _ j hp hj hup
  have hoft := fresh_often size t0 (hs.take j)
  generalize (Site.fresh size t0).after size (hs.take j) = sj at *
  simp only [AnsweredBy, if_pos hup] at aj
  obtain ⟨body, out, a1, a2, rs, a3, a4⟩ := aj
  refine ⟨body, out, List.getElem?_eq_some_iff.mpr ⟨by omega, a1⟩, a2, fun hl => ⟨rs, a4 hl, a3.length_eq.symm, ?_⟩⟩
  intro r hr
  obtain ⟨q, hq, es', r2, r3⟩ := forall₂_get a3 r hr
  have hab := hord q hq
  constructor
  · rw [r3, List.map_map]; exact r2.once
  · intro y hy
    rw [r3] at hy
    obtain ⟨⟨ls, ps⟩, he, rfl⟩ := List.mem_map.mp hy
    obtain ⟨-, rfl⟩ := (r2.entries ls ps).mp he
    exact ((merged_often hB (fun c hc w hw => (hsound c hc w hw).1) _ hab ls).trans (hoft ls)).map _

/-- The answers to a write of one sample with the labels `ls`, a read, a tick of the timer (which closes the chunk), and the read again. -/
def ofRun (ls : Labels) (n v : Str) : List (Option Response) :=
  byRun [.request ⟨[119#8], some (encWrite [⟨ls, [⟨7#64, 1100⟩]⟩])⟩, .request ⟨[114#8], some (encRead [⟨0, 10000, [⟨.eq, n, v⟩]⟩])⟩, .tick 1999#64,
    .request ⟨[114#8], some (encRead [⟨0, 10000, [⟨.eq, n, v⟩]⟩])⟩]

/-- A response with one series. -/
def ofBody (ls : Labels) (n : Nat) : Str := (pbFormats exSnappy exRt).respond [[⟨ls, List.replicate n ⟨7#64, 1100⟩⟩]]

theorem ofBody_reads (ls : Labels) (n : Nat) (hl : (encResponse [[⟨ls, List.replicate n ⟨7#64, 1100⟩⟩]]).length < 2 ^ 32) :
    ∃ out, exSnappy.decompress (ofBody ls n) = some out ∧ ∀ m, IsResponse exRt.utf8 m out ↔ m = [[⟨ls, List.replicate n ⟨7#64, 1100⟩⟩]] := by
  obtain ⟨out, h1, h2⟩ := C60_exact_partial exSnappy exRt [[⟨ls, List.replicate n ⟨7#64, 1100⟩⟩]] (by
    intro r hr s hs
    simp only [List.mem_singleton] at hr
    subst hr
    simp only [List.mem_singleton] at hs
    subst hs
    refine ⟨⟨fun l _ => ⟨rfl, rfl⟩, fun x hx => ?_⟩, fun x hx => ?_⟩
    · rw [(List.mem_replicate.mp hx).2]; unfold I64; decide
    · rw [(List.mem_replicate.mp hx).2]; decide) hl
  exact ⟨out, h1, h2⟩

/-- C98 is false: a sample sent once, with a label set in which a label is repeated, is reported once while its chunk is the current one, and
twice - or three times - after the chunk is closed, for ever. (Asked for by another of its labels it is reported once.) -/
theorem C98_violated :
    ofRun [lbl "a" "1", lbl "a" "1"] (lbl "a" "1").key (lbl "a" "1").value =
      [some ⟨200, []⟩, some ⟨200, ofBody [lbl "a" "1", lbl "a" "1"] 1⟩, none, some ⟨200, ofBody [lbl "a" "1", lbl "a" "1"] 2⟩] ∧
    ofRun [lbl "a" "1", lbl "b" "2", lbl "a" "1", lbl "a" "1"] (lbl "a" "1").key (lbl "a" "1").value =
      [some ⟨200, []⟩, some ⟨200, ofBody [lbl "a" "1", lbl "a" "1", lbl "a" "1", lbl "b" "2"] 1⟩, none,
        some ⟨200, ofBody [lbl "a" "1", lbl "a" "1", lbl "a" "1", lbl "b" "2"] 3⟩] ∧
    ofRun [lbl "a" "1", lbl "b" "2", lbl "a" "1", lbl "a" "1"] (lbl "b" "2").key (lbl "b" "2").value =
      [some ⟨200, []⟩, some ⟨200, ofBody [lbl "a" "1", lbl "a" "1", lbl "a" "1", lbl "b" "2"] 1⟩, none,
        some ⟨200, ofBody [lbl "a" "1", lbl "a" "1", lbl "a" "1", lbl "b" "2"] 1⟩] ∧
    (∃ out, exSnappy.decompress (ofBody [lbl "a" "1", lbl "a" "1"] 2) = some out ∧
      ∀ m, IsResponse exRt.utf8 m out ↔ m = [[⟨[lbl "a" "1", lbl "a" "1"], [⟨7#64, 1100⟩, ⟨7#64, 1100⟩]⟩]]) := by
  exact ⟨by decide +kernel, by decide +kernel, by decide +kernel, ofBody_reads _ 2 (by decide +kernel)⟩

/-! ### The hypotheses of the theorems hold -/

-- a story with a repeated and a late sample: the answer is [200, 400, 300, 400], as sent
example (xs : List (Option Response)) (h' : Host) (hrun : (Host.fresh 1000#64 100#64).run stdBinSearch idealHash (pbFormats exSnappy exRt) ⟨[114#8], [119#8]⟩ [100#8] 1000#64
      unStory = (xs, h')) :=
  C98_partial_often stdBinSearch stdBinSearch_careful idealHash exSnappy exRt ⟨[114#8], [119#8]⟩ (by decide) [100#8] (by decide) 1000#64 100#64
    unStory unSaid unStory_means unStory_proper (by decide +kernel) xs h' hrun 3 [unAsk 0 10000] rfl (by decide +kernel)

example : sentTo (unSaid.take 3) [lbl "a" "1", lbl "b" "2"] = [200, 400, 300, 400].map fun t => ⟨t, 0x3ff0000000000000#64⟩ := by decide +kernel

example : ((Host.fresh 1000#64 100#64).run stdBinSearch idealHash (pbFormats exSnappy exRt) ⟨[114#8], [119#8]⟩ [100#8] 1000#64 unStory).1[3]? =
    some (some ⟨200, unBody [200, 400, 300, 400]⟩) := by decide +kernel

end Verif
