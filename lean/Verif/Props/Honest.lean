import Verif.Lemmas.Honest
import Verif.Props.Bytes
/-! Property C97: nothing is made up, whatever is sent. -/
namespace Verif
open List

/-- C97: through any history of requests of any bytes, to any path, timer ticks and restarts at any clock readings: if a read is answered with
status 200, then the answer is a Snappy-compressed read response (as far as one message can be told by its length), and every sample in it was
sent in an earlier write request: its time and its value, as they are reported, are numbers found in the bytes of that request (or the default
0), its time is not 0, and if that request is a write request in any encoding, then it is one of its samples. -/
theorem C97_honest (B : BinSearch) (H : Hash) (sn : Snappy) (rt : PbRt) (hf : rt.Forward) (hcut : CutsAtAscii rt.utf8) (P : Paths) (base : Str)
    (size t0 : U64) (es : List HostEvent) (hl : ∀ e ∈ es, e.lists) (j : Nat) (r : Request) (hj : es[j]? = some (.request r)) (hurl : r.url = P.read) (body : Str)
    (hres : ((Host.fresh size t0).runNamed B H (pbFormats sn rt) P base size es).1[j]? = some (some ⟨200, body⟩)) :
    ∃ out, sn.decompress body = some out ∧ (out.length < 2 ^ 32 → ∃ rs, (∀ m, IsResponse rt.utf8 m out ↔ m = rs) ∧
      ∀ res ∈ rs, ∀ y ∈ res, ∀ z ∈ y.samples, ∃ i w p, i < j ∧ es[i]? = some (.request w) ∧ SentBy sn rt P w p ∧ z = asReported p) := by
  obtain ⟨h1, -⟩ := runNamed_split B H (pbFormats sn rt) P base size es (Host.fresh size t0) j _ hj
  rw [h1] at hres
  have hd := honest_run (U := fun p => ∃ i w, i < j ∧ es[i]? = some (.request w) ∧ SentBy sn rt P w p) hf hcut sn P B H base size (es.take j)
    (fun e he => hl e (List.mem_of_mem_take he)) (by
      intro w p hw hs
      obtain ⟨i, hi⟩ := List.getElem?_of_mem hw
      obtain ⟨a, b⟩ := List.getElem?_eq_some_iff.mp hi
      rw [List.length_take] at a
      rw [List.getElem_take] at b
      exact ⟨i, w, by omega, List.getElem?_eq_some_iff.mpr ⟨by omega, b⟩, hs⟩) (fresh_honest rt.utf8 _ size t0)
  generalize ((Host.fresh size t0).runNamed B H (pbFormats sn rt) P base size (es.take j)).2 = h at hres hd
  obtain ⟨url, rb⟩ := r
  simp only [] at hurl
  subst hurl
  simp only [Host.stepNamed] at hres
  split at hres
  · rcases hp : process (liveApi B H) (pbFormats sn rt) P h.db ⟨P.read, rb⟩ with ⟨_ | x, db'⟩
    · rw [hp] at hres; cases hres
    · rw [hp] at hres
      simp only [Option.some.injEq] at hres
      subst hres
      unfold process at hp
      rcases rb with _ | b
      · cases hp
      · simp only [] at hp
        split at hp
        · cases hp
        · rw [if_pos trivial] at hp
          split at hp
          · cases hp
          · rename_i req hreq
            split at hp
            · cases hp
            · rcases hq : serverQuery (liveApi B H) h.db req.queries with rs | e | _
              · rw [hq] at hp
                cases hp
                obtain ⟨k1, k2⟩ := hd.read hcut B H req.queries hq
                refine ⟨encResponse rs, sn.undo _, fun hlen => ⟨rs.map (·.map wireSeries), ?_, fun res hr y hy z hz => ?_⟩⟩
                · obtain ⟨out, o1, o2⟩ := C60_response_partial sn rt rs k2 hlen
                  have : out = encResponse rs := by
                    have : sn.decompress (sn.compress (encResponse rs)) = some out := o1
                    rw [sn.undo] at this
                    exact (Option.some.inj this).symm
                  rw [← this]
                  exact o2
                · obtain ⟨p, ⟨i, w, a, b, c⟩, e⟩ := k1 res hr y hy z hz
                  exact ⟨i, w, p, a, b, c, e⟩
              · rw [hq] at hp; cases hp
              · rw [hq] at hp; cases hp
  · cases hres

/-- C97, the default is real: a write whose sample is cut after its time (the field order time, value is a valid one) is answered with 200,
and the sample is stored and reported with the value 0, which nobody sent; these bytes are no write request in any encoding. -/
theorem C97_default : byRun [.request ⟨[119#8], some [10#8, 16#8, 10#8, 6#8, 10#8, 1#8, 97#8, 18#8, 1#8, 49#8, 18#8, 6#8, 16#8, 204#8, 8#8, 9#8, 1#8, 2#8]⟩, ckRead 0 10000] =
      [some ⟨200, []⟩, some ⟨200, (pbFormats exSnappy exRt).respond [[⟨[lbl "a" "1"], [⟨0#64, 1100⟩]⟩]]⟩] := by
  decide +kernel

/-! ### The hypotheses of the theorems hold -/

/-- Odd labels twice, a sample cut short, a time of 0, a path that does not exist, bytes that are no message; an old window, a start. -/
def hoStory : List HostEvent :=
  [.request ⟨[119#8], some [255#8, 255#8, 255#8]⟩, .request ⟨[119#8], some (encWrite [⟨[lbl "a" "1", lbl "a" "1"], [⟨7#64, 1100⟩, ⟨8#64, 0⟩]⟩])⟩,
    .request ⟨[119#8], some [10#8, 16#8, 10#8, 6#8, 10#8, 1#8, 97#8, 18#8, 1#8, 49#8, 18#8, 6#8, 16#8, 204#8, 8#8, 9#8, 1#8, 2#8]⟩,
    .request ⟨[120#8], some []⟩, .tick 1999#64, .tick 999#64, ckRestart 3000#64, ckRead 0 10000]

theorem hoStory_lists : ∀ e ∈ hoStory, e.lists := by
  intro e he
  simp only [hoStory, List.mem_cons, List.not_mem_nil, or_false] at he
  rcases he with rfl | rfl | rfl | rfl | rfl | rfl | rfl | rfl <;> first | exact True.intro | exact fun _ => List.Perm.refl _

/-- What the read is answered. -/
def hoBody : Str := (pbFormats exSnappy exRt).respond [[⟨[lbl "a" "1", lbl "a" "1"], [⟨7#64, 1100⟩, ⟨7#64, 1100⟩]⟩, ⟨[lbl "a" "1"], [⟨0#64, 1100⟩]⟩]]

theorem hoStory_read : (byRun hoStory)[7]? = some (some ⟨200, hoBody⟩) := by decide +kernel

theorem exRt_forward : exRt.Forward := by intro s r h; cases h

-- all of these were sent
example : ∃ out, exSnappy.decompress hoBody = some out ∧ (out.length < 2 ^ 32 → ∃ rs, (∀ m, IsResponse exRt.utf8 m out ↔ m = rs) ∧
      ∀ res ∈ rs, ∀ y ∈ res, ∀ z ∈ y.samples, ∃ i w p, i < 7 ∧ hoStory[i]? = some (.request w) ∧ SentBy exSnappy exRt ⟨[114#8], [119#8]⟩ w p ∧ z = asReported p) :=
  C97_honest stdBinSearch idealHash exSnappy exRt exRt_forward (fun _ _ => by simp [exRt]) ⟨[114#8], [119#8]⟩ [100#8] 1000#64 1000#64 hoStory hoStory_lists 7 _ rfl rfl hoBody hoStory_read

-- and the answer says something
example : ∃ out, exSnappy.decompress hoBody = some out ∧ out.length < 2 ^ 32 ∧
    ∀ m, IsResponse exRt.utf8 m out ↔ m = [[⟨[lbl "a" "1", lbl "a" "1"], [⟨7#64, 1100⟩, ⟨7#64, 1100⟩]⟩, ⟨[lbl "a" "1"], [⟨0#64, 1100⟩]⟩]] := by
  have hlen : (encResponse [[⟨[lbl "a" "1", lbl "a" "1"], [⟨7#64, 1100⟩, ⟨7#64, 1100⟩]⟩, ⟨[lbl "a" "1"], [⟨0#64, 1100⟩]⟩]]).length < 2 ^ 32 := by decide +kernel
  obtain ⟨out, h1, h2⟩ := C60_response_partial exSnappy exRt [[⟨[lbl "a" "1", lbl "a" "1"], [⟨7#64, 1100⟩, ⟨7#64, 1100⟩]⟩, ⟨[lbl "a" "1"], [⟨0#64, 1100⟩]⟩]] (by
    intro r hr s hs
    simp only [List.mem_cons, List.not_mem_nil, or_false] at hr
    subst hr
    simp only [List.mem_cons, List.not_mem_nil, or_false] at hs
    rcases hs with rfl | rfl
    · exact ⟨fun l _ => ⟨rfl, rfl⟩, by unfold I64; decide⟩
    · exact ⟨fun l _ => ⟨rfl, rfl⟩, by unfold I64; decide⟩) hlen
  exact ⟨_, exSnappy.undo _, hlen, by
    have e : out = encResponse _ := (Option.some.inj ((exSnappy.undo _).symm.trans h1)).symm
    rw [← e]; exact h2⟩

end Verif
