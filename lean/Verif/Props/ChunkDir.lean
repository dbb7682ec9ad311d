import Verif.Lemmas.ChunkDir
import Mathlib.Data.List.Forall2
/-! Properties C10 and C11: chunk directory names and reopening. -/
namespace Verif
open List

/-! ### C10 -/

/-- C10. Decoding a chunk directory name returns its window. -/
theorem C10_round_trip (start end_ : U64) : decodeChunkDir (encodeChunkDir start end_) = some (start, end_) :=
  decode_encode start end_

/-- C10. Different windows have different names. -/
theorem C10_injective (s e s' e' : U64) (h : encodeChunkDir s e = encodeChunkDir s' e') : s = s' ∧ e = e' := by
  have h1 := decode_encode s e
  rw [h, decode_encode] at h1
  simp only [Option.some.injEq, Prod.mk.injEq] at h1
  exact ⟨h1.1.symm, h1.2.symm⟩

/-- C10. A name is a non-empty string of lowercase hexadecimal digits `0-9a-f`. -/
theorem C10_charset (s e : U64) : encodeChunkDir s e ≠ [] ∧
    ∀ b ∈ encodeChunkDir s e, (48 ≤ b.toNat ∧ b.toNat ≤ 57) ∨ (97 ≤ b.toNat ∧ b.toNat ≤ 102) := by
  rw [encodeChunkDir_eq]
  refine ⟨formatNat_ne_nil _ _, ?_⟩
  intro b hb
  obtain ⟨d, hd, rfl⟩ := formatNat_digits (by omega) b hb
  simp only [digitByte, BitVec.toNat_ofNat]
  split <;> omega

example : encodeChunkDir 0x10#64 0xff#64 = ascii "1000000000000000ff".toList := by decide +kernel
example : encodeChunkDir 0#64 0xab#64 = ascii "ab".toList := by decide +kernel

/-! ### C11 -/

private theorem chunkName_ok (s e : U64) : startOk (encodeChunkDir s e) ∧ (∀ b ∈ encodeChunkDir s e, b ≠ 47#8) ∧
    (∀ b ∈ encodeChunkDir s e, isCont b = false) := by
  have h := (C10_charset s e).2
  have key : ∀ b : Byte, ((48 ≤ b.toNat ∧ b.toNat ≤ 57) ∨ (97 ≤ b.toNat ∧ b.toNat ≤ 102)) → isCont b = false := by
    decide +kernel
  refine ⟨startOk_of_all fun b hb => key b (h b hb), ?_, fun b hb => key b (h b hb)⟩
  · intro b hb he
    have := h b hb
    subst he
    revert this; decide

/-- C11, exact. Reopening at any base path (valid UTF-8) decodes the chunk's directory name without its first `k`
characters, where `k` is the number of UTF-8 continuation bytes of the base path. -/
theorem C11_exact (base : Str) (hb : startOk base) (s e now : U64) :
    readEntry base ⟨encodeChunkDir s e, true, some true, some true, now⟩ =
      match decodeChunkDir ((encodeChunkDir s e).drop (base.countP isCont)) with
      | none => .ignored
      | some (s', e') => .chunk s' (if e'.toNat > now.toNat then now else e') := by
  obtain ⟨h1, h2, h3⟩ := chunkName_ok s e
  simp only [readEntry, dirNameOf_eq base _ hb h1 h2]
  rw [chars_ascii h3, ← List.map_drop]
  have : ∀ l : Str, (l.map fun b => [b]).flatten = l := by
    intro l; induction l with
    | nil => rfl
    | cons a l ih => simp [ih]
  rw [this]
  cases decodeChunkDir ((encodeChunkDir s e).drop (base.countP isCont)) with
  | none => rfl
  | some r => simp

/-- C11 is false of the code: under the base path "é" (bytes C3 A9) a chunk written for one window is reopened with a
different start time. -/
theorem C11_violated : ¬ ∀ (base : Str), startOk base → ∀ s e now : U64,
    readEntry base ⟨encodeChunkDir s e, true, some true, some true, now⟩ =
      .chunk s (if e.toNat > now.toNat then now else e) := by
  intro h
  have := h [0xC3#8, 0xA9#8] (by unfold startOk; decide) 0x123#64 0x456#64 0x999#64
  revert this; decide +kernel

/-- C11 is false of the code for other entries: a file that happens to be called "cafe" makes opening fail. -/
theorem C11_violated_other : readExisting (ascii "db".toList)
    [⟨ascii "cafe".toList, false, none, none, 5#64⟩] = none := by decide +kernel

/-- C11, partial: ASCII base paths (no continuation bytes). Each chunk directory is recognised with its own start time
and the minimum of its end time and the clock. Missing: non-ASCII base paths (false, see `C11_exact`). -/
theorem C11_partial (base : Str) (hb : ∀ b ∈ base, isCont b = false) (s e now : U64) :
    readEntry base ⟨encodeChunkDir s e, true, some true, some true, now⟩ =
      .chunk s (if e.toNat > now.toNat then now else e) := by
  have h0 : base.countP isCont = 0 := by
    rw [List.countP_eq_zero]; intro b h; simp [hb b h]
  have hs : startOk base := startOk_of_all hb
  rw [C11_exact base hs, h0]
  simp [decode_encode]

/-- A string that `from_str_radix(.., 16)` accepts as a 128-bit number. -/
def isHexName (n : Str) : Prop := ∃ v, parseUnsigned 16 (2 ^ 128 - 1) n = some v

/-- C11, exact for entries under an ASCII base: an entry whose name is not a hexadecimal number (with optional `+`) is
ignored, whatever it contains. -/
theorem C11_ignored (base : Str) (hb : ∀ b ∈ base, isCont b = false) (d : DirEntry) (hs : startOk d.name)
    (hslash : ∀ b ∈ d.name, b ≠ 47#8) (hn : ¬ isHexName d.name) : readEntry base d = .ignored := by
  have h0 : base.countP isCont = 0 := by
    rw [List.countP_eq_zero]; intro b h; simp [hb b h]
  have hsb : startOk base := startOk_of_all hb
  have hp : parseUnsigned 16 (2 ^ 128 - 1) d.name = none := by
    cases h : parseUnsigned 16 (2 ^ 128 - 1) d.name with
    | none => rfl
    | some v => exact absurd ⟨v, h⟩ hn
  simp [readEntry, dirNameOf_eq base _ hsb hs hslash, h0, chars_flatten, decodeChunkDir_eq, hp]

/-- One entry of a database directory: a complete chunk directory for a window, or something with a non-hex name. -/
inductive GoodEntry : DirEntry → Option (U64 × U64) → Prop where
  | chunk (s e now : U64) : GoodEntry ⟨encodeChunkDir s e, true, some true, some true, now⟩
      (some (s, if e.toNat > now.toNat then now else e))
  | other (d : DirEntry) (hs : startOk d.name) (hslash : ∀ b ∈ d.name, b ≠ 47#8) (hn : ¬ isHexName d.name) :
      GoodEntry d none

/-- C11, the whole directory (ASCII base): reopening succeeds and yields exactly the windows of the chunk directories
present (each with its end time capped by the clock), sorted by start time. -/
theorem C11_directory_partial (base : Str) (hb : ∀ b ∈ base, isCont b = false) (es : List DirEntry)
    (ws : List (Option (U64 × U64))) (h : List.Forall₂ GoodEntry es ws) :
    ∃ found, readExisting base es = some found ∧ found.Perm (ws.filterMap id) ∧
      found.Pairwise (fun a b => a.1.toNat ≤ b.1.toNat) := by
  have key : readEntries base es = some (ws.filterMap id) := by
    induction h with
    | nil => rfl
    | cons hd _ ih =>
      cases hd with
      | chunk s e now => simp [readEntries, C11_partial base hb s e now, ih]
      | other _ hs hslash hn => simp [readEntries, C11_ignored base hb _ hs hslash hn, ih]
  refine ⟨stableSort (fun a b => decide (a.1.toNat ≤ b.1.toNat)) (ws.filterMap id), by simp [readExisting, key],
    stableSort_perm _ _, ?_⟩
  have := stableSort_sorted (le := fun a b : U64 × U64 => decide (a.1.toNat ≤ b.1.toNat))
    (by intro a b; simp; omega) (by intro a b c; simp; omega) (ws.filterMap id)
  simpa using this

example : (∀ b ∈ ascii "/data/db".toList, isCont b = false) ∧
    List.Forall₂ GoodEntry [⟨encodeChunkDir 7#64 9#64, true, some true, some true, 8#64⟩,
      ⟨ascii "metadata.json".toList, false, none, none, 8#64⟩,
      ⟨encodeChunkDir 3#64 6#64, true, some true, some true, 8#64⟩] [some (7#64, 8#64), none, some (3#64, 6#64)] := by
  refine ⟨by decide, ?_⟩
  refine .cons (.chunk 7 9 8) (.cons (.other _ ?_ ?_ ?_) (.cons (.chunk 3 6 8) .nil))
  · unfold startOk; decide
  · decide
  · rintro ⟨v, hv⟩; revert hv
    rw [show parseUnsigned 16 (2 ^ 128 - 1) (ascii "metadata.json".toList) = none by decide +kernel]
    simp

end Verif
