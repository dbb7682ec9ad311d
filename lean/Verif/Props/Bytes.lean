import Verif.Lemmas.Bytes
import Verif.Props.Ranges
/-! Property C96: no request stops the server. -/
namespace Verif
open List

/-- C96, which requests can stop the server: through any history of requests of any bytes, to any path, with labels, samples and ranges of
any kind, timer ticks and restarts at any clock readings, a running server answers every request with status 200, 404 or 500 and goes on - or
the request is not decent (its body cannot be read, is not Snappy data, or it is a read with an inverted range), it is not answered, the
process ends, and nothing stored has changed. (Missing: that also requests that are not decent are answered - see C96_violated_garbage,
C96_violated_inverted.) -/
theorem C96_partial_only (B : BinSearch) (hB : Careful B) (H : Hash) (hH : H.Good fun _ => True) (sn : Snappy) (rt : PbRt) (P : Paths) (base : Str)
    (hb : ∀ b ∈ base, isCont b = false) (size t0 : U64) (es : List HostEvent) (hl : ∀ e ∈ es, e.lists)
    (i : Nat) (r : Request) (hi : es[i]? = some (.request r)) (before after : Host)
    (hbefore : ((Host.fresh size t0).runNamed B H (pbFormats sn rt) P base size (es.take i)).2 = before)
    (hafter : ((Host.fresh size t0).runNamed B H (pbFormats sn rt) P base size (es.take (i + 1))).2 = after) (hup : before.up = true) :
    (∃ x, ((Host.fresh size t0).runNamed B H (pbFormats sn rt) P base size es).1[i]? = some (some x) ∧ x.status ∈ [200, 404, 500] ∧ after.up = true) ∨
    (((Host.fresh size t0).runNamed B H (pbFormats sn rt) P base size es).1[i]? = some none ∧ ¬ Decent sn rt P r ∧ after = ⟨false, before.db⟩) := by
  obtain ⟨h1, h2⟩ := runNamed_split B H (pbFormats sn rt) P base size es (Host.fresh size t0) i _ hi
  have hc := calm_run hB hH sn rt P hb (es.take i) (fun e he => hl e (List.mem_of_mem_take he)) (fresh_calm size t0)
  rw [hbefore] at h1 h2 hc
  rw [hafter] at h2
  rw [h1, h2]
  simp only [Host.stepNamed, if_pos hup]
  rcases calm_process hB hH sn rt P hc r with ⟨x, db', e1, e2, -⟩ | ⟨e1, e2⟩
  · rw [e1]; exact .inl ⟨x, rfl, e2, rfl⟩
  · rw [e1]; exact .inr ⟨rfl, e2, rfl⟩

/-- C96, the timer: whatever was sent before, a tick does not stop a running server. -/
theorem C96_partial_tick (B : BinSearch) (hB : Careful B) (H : Hash) (hH : H.Good fun _ => True) (sn : Snappy) (rt : PbRt) (P : Paths) (base : Str)
    (hb : ∀ b ∈ base, isCont b = false) (size t0 : U64) (es : List HostEvent) (hl : ∀ e ∈ es, e.lists) (i : Nat) (r : U64) (hi : es[i]? = some (.tick r))
    (hup : ((Host.fresh size t0).runNamed B H (pbFormats sn rt) P base size (es.take i)).2.up = true) :
    ((Host.fresh size t0).runNamed B H (pbFormats sn rt) P base size (es.take (i + 1))).2.up = true := by
  obtain ⟨-, h2⟩ := runNamed_split B H (pbFormats sn rt) P base size es (Host.fresh size t0) i _ hi
  have hc := calm_run hB hH sn rt P hb (es.take i) (fun e he => hl e (List.mem_of_mem_take he)) (fresh_calm size t0)
  rw [h2]
  simp only [Host.stepNamed, LiveDb.stepNamed, if_pos hup]
  split
  · rfl
  · rename_i hx
    exfalso
    split at hx
    · cases hx
    · obtain ⟨db', e1, -⟩ := hc.tick B base r
      rw [e1] at hx; cases hx

/-- C96, restarts: whatever was sent before, and whether or not the server runs, a start brings it up, if the clock does not read, to the
millisecond, the start of the window of an earlier chunk (see C96_violated_start). -/
theorem C96_partial_restart (B : BinSearch) (hB : Careful B) (H : Hash) (hH : H.Good fun _ => True) (sn : Snappy) (rt : PbRt) (P : Paths) (base : Str)
    (hb : ∀ b ∈ base, isCont b = false) (size t0 : U64) (es : List HostEvent) (hl : ∀ e ∈ es, e.lists) (i : Nat) (o : List Slot → List Slot) (k : Str → U64) (now : U64)
    (hi : es[i]? = some (.restart o k now)) (hnew : now ∉ t0 :: (es.take i).flatMap HostEvent.begins) :
    ((Host.fresh size t0).runNamed B H (pbFormats sn rt) P base size (es.take (i + 1))).2.up = true := by
  obtain ⟨-, h2⟩ := runNamed_split B H (pbFormats sn rt) P base size es (Host.fresh size t0) i _ hi
  have hc := calm_run hB hH sn rt P hb (es.take i) (fun e he => hl e (List.mem_of_mem_take he)) (fresh_calm size t0)
  rw [h2]
  have ho : (HostEvent.restart o k now).lists := hl _ (List.mem_of_getElem? hi)
  have hnt : ¬ (((Host.fresh size t0).runNamed B H (pbFormats sn rt) P base size (es.take i)).2.db.taken now (now + size)) = true := fun h => hnew (by
    have := hc.taken h
    simpa using this)
  obtain ⟨db', e1, -⟩ := hc.restart B hb ho k now
  simp only [Host.stepNamed, LiveDb.stepNamed, if_neg hnt]
  rw [e1]

/-- C96, availability: if every request is decent and every start at a new time, then every request is answered, whatever its bytes. -/
theorem C96_partial_available (B : BinSearch) (hB : Careful B) (H : Hash) (hH : H.Good fun _ => True) (sn : Snappy) (rt : PbRt) (P : Paths) (base : Str)
    (hb : ∀ b ∈ base, isCont b = false) (size t0 : U64) (es : List HostEvent) (hl : ∀ e ∈ es, e.lists)
    (hd : ∀ r, HostEvent.request r ∈ es → Decent sn rt P r)
    (hs : ∀ i o k now, es[i]? = some (.restart o k now) → now ∉ t0 :: (es.take i).flatMap HostEvent.begins) (i : Nat) (r : Request)
    (hi : es[i]? = some (.request r)) :
    ∃ x, ((Host.fresh size t0).runNamed B H (pbFormats sn rt) P base size es).1[i]? = some (some x) ∧ x.status ∈ [200, 404, 500] := by
  have hup : ∀ n, n ≤ es.length → ((Host.fresh size t0).runNamed B H (pbFormats sn rt) P base size (es.take n)).2.up = true := by
    intro n
    induction n with
    | zero => intro _; rfl
    | succ n ih =>
      intro hn
      have hu := ih (by omega)
      obtain ⟨e, he⟩ : ∃ e, es[n]? = some e := ⟨es[n], List.getElem?_eq_getElem (by omega)⟩
      cases e with
      | request r =>
        rcases C96_partial_only B hB H hH sn rt P base hb size t0 es hl n r he _ _ rfl rfl hu with ⟨x, -, -, h⟩ | ⟨-, h, -⟩
        · exact h
        · exact absurd (hd r (List.mem_of_getElem? he)) h
      | tick r => exact C96_partial_tick B hB H hH sn rt P base hb size t0 es hl n r he hu
      | restart o k now => exact C96_partial_restart B hB H hH sn rt P base hb size t0 es hl n o k now he (hs n o k now he)
  obtain ⟨h1, -⟩ := List.getElem?_eq_some_iff.mp hi
  rcases C96_partial_only B hB H hH sn rt P base hb size t0 es hl i r hi _ _ rfl rfl (hup i (by omega)) with ⟨x, h2, h3, -⟩ | ⟨-, h, -⟩
  · exact ⟨x, h2, h3⟩
  · exact absurd (hd r (List.mem_of_getElem? hi)) h

/-- The histories of C96 in which every chunk starts at a new time are those of C75, C92, C93, C94 and C95. -/
theorem C96_partial_same (B : BinSearch) (hB : Careful B) (H : Hash) (hH : H.Good fun _ => True) (sn : Snappy) (rt : PbRt) (P : Paths) (base : Str)
    (hb : ∀ b ∈ base, isCont b = false) (size t0 : U64) (es : List HostEvent) (hl : ∀ e ∈ es, e.lists) (hnew : (t0 :: es.flatMap HostEvent.begins).Nodup) :
    (Host.fresh size t0).runNamed B H (pbFormats sn rt) P base size es = (Host.fresh size t0).run B H (pbFormats sn rt) P base size es := by
  rw [List.nodup_cons] at hnew
  exact runNamed_run hB hH sn rt P hb es hl (fresh_calm size t0) ⟨hnew.2, fun a ha h => by rw [List.mem_singleton] at h; subst h; exact hnew.1 ha⟩

/-! ### What does not hold -/

/-- C96 is false: a request whose body is not Snappy data (or cannot be read) is not answered, whatever its path and the state of the server,
and neither is any other until the next start. -/
theorem C96_violated_garbage (B : BinSearch) (H : Hash) (sn : Snappy) (rt : PbRt) (P : Paths) (base : Str) (size : U64) (h : Host) (r : Request)
    (hr : ∀ body, r.body = some body → sn.decompress body = none) (later : List Request) :
    (h.runNamed B H (pbFormats sn rt) P base size (.request r :: later.map .request)).1 = List.replicate (later.length + 1) none := by
  have hdown : ∀ (rs : List Request) (db : LiveDb), ((⟨false, db⟩ : Host).runNamed B H (pbFormats sn rt) P base size (rs.map .request)).1 = List.replicate rs.length none := by
    intro rs
    induction rs with
    | nil => intro db; rfl
    | cons x rs ih => intro db; simp only [List.map_cons, Host.runNamed, Host.stepNamed, Bool.false_eq_true, if_false, ih, List.length_cons, List.replicate_succ]
  have hp : process (liveApi B H) (pbFormats sn rt) P h.db r = (none, h.db) := by
    unfold process
    obtain ⟨url, rb⟩ := r
    cases rb with
    | none => rfl
    | some body =>
      have : (pbFormats sn rt).decompress body = none := hr body rfl
      simp only [this]
  obtain ⟨u, db⟩ := h
  simp only [] at hp
  cases u with
  | true => simp only [Host.runNamed, Host.stepNamed, if_true, hp, hdown, List.replicate_succ]
  | false => simp only [Host.runNamed, Host.stepNamed, Bool.false_eq_true, if_false, hdown, List.replicate_succ]

/-- The responses of a server started at 1000 with chunks of 1000. -/
def byRun (es : List HostEvent) : List (Option Response) :=
  ((Host.fresh 1000#64 1000#64).runNamed stdBinSearch idealHash (pbFormats exSnappy exRt) ⟨[114#8], [119#8]⟩ [100#8] 1000#64 es).1

/-- C96 is false: a well-formed read with an inverted range stops the server. -/
theorem C96_violated_inverted : byRun [ckWrite [1100, 1200, 1300], ckRead 1250 1150, ckRead 0 10000] = [some ⟨200, []⟩, none, none] ∧
    IsRead exRt.utf8 [unAsk 1250 1150] (encRead [unAsk 1250 1150]) :=
  ⟨by decide +kernel, ask_says (by decide) (by decide) (by decide +kernel)⟩

/-- C96 is false: a start at the millisecond at which an earlier chunk begins (the clock was set back, say) fails; a millisecond later it
succeeds. -/
theorem C96_violated_start : byRun [ckWrite [1100], ckRestart 1000#64, ckRead 0 10000, ckRestart 1001#64, ckRead 0 10000] =
    [some ⟨200, []⟩, none, none, none, some ⟨200, unBody [1100]⟩] := by
  decide +kernel

/-! ### The hypotheses of the theorems hold -/

/-- A Snappy that refuses some bytes. -/
def bySnappy : Snappy := ⟨fun s => 1#8 :: s, fun s => match s with | 1#8 :: t => some t | _ => none, fun _ => rfl⟩

-- C96_violated_garbage applies
example : ((⟨true, LiveDb.fresh 1000#64 1000#64⟩ : Host).runNamed stdBinSearch idealHash (pbFormats bySnappy exRt) ⟨[114#8], [119#8]⟩ [100#8] 1000#64
    (.request ⟨[119#8], some [7#8]⟩ :: [⟨[119#8], some [1#8]⟩].map .request)).1 = [none, none] :=
  C96_violated_garbage stdBinSearch idealHash bySnappy exRt _ _ _ _ _ (by intro b hb; cases hb; rfl) _

/-- Bytes that are no message, a write with labels of odd names and values and a sample cut off, a tick, a read of any bytes, a path that does
not exist, a tick back to an old window, a start, a read. -/
def byStory : List HostEvent :=
  [.request ⟨[119#8], some [255#8, 255#8, 255#8]⟩,
    .request ⟨[119#8], some (encWrite [⟨[lbl "Ra" "1,b", lbl "" "=,="], [⟨1#64, 1500⟩, ⟨2#64, 1400⟩]⟩])⟩,
    .tick 1999#64, .request ⟨[114#8], some [10#8, 3#8, 1#8, 2#8]⟩, .request ⟨[120#8], some []⟩, .tick 999#64, ckRestart 3000#64,
    .request ⟨[114#8], some (encRead [unAsk (-1) (-1)])⟩]

theorem byStory_lists : ∀ e ∈ byStory, e.lists := by
  intro e he
  simp only [byStory, List.mem_cons, List.not_mem_nil, or_false] at he
  rcases he with rfl | rfl | rfl | rfl | rfl | rfl | rfl | rfl <;> first | exact True.intro | exact fun _ => List.Perm.refl _

theorem byStory_decent : ∀ r, HostEvent.request r ∈ byStory → Decent exSnappy exRt ⟨[114#8], [119#8]⟩ r := by
  intro r hr
  simp only [byStory, ckRestart, List.mem_cons, List.not_mem_nil, or_false, HostEvent.request.injEq, reduceCtorEq, false_or] at hr
  rcases hr with rfl | rfl | rfl | rfl | rfl
  · exact ⟨_, _, rfl, rfl, fun h => absurd h (by decide)⟩
  · exact ⟨_, _, rfl, rfl, fun h => absurd h (by decide)⟩
  · exact ⟨_, _, rfl, rfl, fun _ req h => by
      have : (pbFormats exSnappy exRt).parseRead [10#8, 3#8, 1#8, 2#8] = none := by decide +kernel
      rw [this] at h; cases h⟩
  · exact ⟨_, _, rfl, rfl, fun h => absurd h (by decide)⟩
  · refine ⟨_, _, rfl, rfl, fun _ req h => ?_⟩
    have e := C59_read exSnappy exRt (ask_says (a := -1) (b := -1) (by decide) (by decide) (by decide +kernel)) (by simp)
    rw [e] at h
    cases h
    decide +kernel

-- every request of the story is answered
example (i : Nat) (r : Request) (hi : byStory[i]? = some (.request r)) : ∃ x, (byRun byStory)[i]? = some (some x) ∧ x.status ∈ [200, 404, 500] :=
  C96_partial_available stdBinSearch stdBinSearch_careful idealHash (idealHash_good _) exSnappy exRt ⟨[114#8], [119#8]⟩ [100#8] (by decide) 1000#64 1000#64 byStory byStory_lists
    byStory_decent (by
      intro i o k now h
      match i, h with
      | 6, h => cases h; decide +kernel
      | 0, h => cases h
      | 1, h => cases h
      | 2, h => cases h
      | 3, h => cases h
      | 4, h => cases h
      | 5, h => cases h
      | 7, h => cases h
      | n + 8, h => simp [byStory] at h) i r hi

-- and so it is
example : (byRun byStory).map (·.map (·.status)) = [some 200, some 200, none, some 500, some 404, none, none, some 200] := by decide +kernel

-- a history with new times only
example : byRun [ckWrite [1100], .tick 1999#64, ckRestart 3000#64, ckRead 0 10000] = ckRun [ckWrite [1100], .tick 1999#64, ckRestart 3000#64, ckRead 0 10000] := by
  unfold byRun ckRun
  rw [C96_partial_same stdBinSearch stdBinSearch_careful idealHash (idealHash_good _) exSnappy exRt ⟨[114#8], [119#8]⟩ [100#8] (by decide) 1000#64 1000#64 _ (by
    intro e he
    simp only [List.mem_cons, List.not_mem_nil, or_false] at he
    rcases he with rfl | rfl | rfl | rfl <;> first | exact True.intro | exact fun _ => List.Perm.refl _) (by decide +kernel)]

-- a read that stops the server is not decent
example : ¬ Decent exSnappy exRt ⟨[114#8], [119#8]⟩ ⟨[114#8], some (encRead [unAsk 1250 1150])⟩ := by
  rcases C96_partial_only stdBinSearch stdBinSearch_careful idealHash (idealHash_good _) exSnappy exRt ⟨[114#8], [119#8]⟩ [100#8] (by decide) 1000#64 1000#64
    [ckWrite [1100, 1200, 1300], ckRead 1250 1150, ckRead 0 10000] (by intro e he; simp only [List.mem_cons, List.not_mem_nil, or_false] at he; rcases he with rfl | rfl | rfl <;> exact True.intro)
    1 _ rfl _ _ rfl rfl (by decide +kernel) with ⟨x, h, -⟩ | ⟨-, h, -⟩
  · have := C96_violated_inverted.1
    unfold byRun at this
    rw [this] at h
    cases h
  · exact h

end Verif
