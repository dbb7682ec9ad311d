import Verif.Model.Options
import Verif.Props.Misc
import Verif.Props.Chunk
import Verif.Props.Db
/-! C69: the chunk-size option. -/
namespace Verif
open List

/-- What the user asks for with `--chunk_size n` (README: "size of one chunk in seconds"): the chunk that starts at `s` ends `n` seconds
later. -/
def LastsSeconds (n : Nat) (s e : U64) : Prop := e.toNat = s.toNat + 1000 * n

theorem sizeMillis_toNat (n : Nat) : (sizeMillis n).toNat = n * 1000 % 2 ^ 64 := by simp [sizeMillis]

theorem addTime_eq (checked : Bool) (a b : U64) :
    addTime checked a b = if checked = true ∧ 2 ^ 64 ≤ a.toNat + b.toNat then none else some (a + b) := by
  unfold addTime
  cases checked <;> simp

/-- The option is refused exactly when it is not a decimal numeral below 2^64. -/
theorem C69_refused (checked : Bool) (text : Str) (now : U64) :
    startWith checked text now = .refused ↔ ¬ ∃ n, IsUnsignedNumeral text (2 ^ 64 - 1) n := by
  unfold startWith chunkSizeSecs
  constructor
  · rintro h ⟨n, hn⟩
    rw [(parseUnsigned_iff _ _ _).mpr hn] at h
    simp only at h
    split at h <;> cases h
  · intro h
    rcases hp : parseUnsigned 10 (2 ^ 64 - 1) text with _ | n
    · rfl
    · exact absurd ⟨n, (parseUnsigned_iff _ _ _).mp hp⟩ h

/-- What happens for an accepted number, exactly: the number of milliseconds is taken modulo 2^64; if the end of the first chunk does
not fit, a build with overflow checks panics and one without wraps around. -/
theorem C69_exact (checked : Bool) (text : Str) (n : Nat) (hn : IsUnsignedNumeral text (2 ^ 64 - 1) n) (now : U64) :
    (checked = true ∧ 2 ^ 64 ≤ now.toNat + n * 1000 % 2 ^ 64 → startWith checked text now = .panicked) ∧
    (¬ (checked = true ∧ 2 ^ 64 ≤ now.toNat + n * 1000 % 2 ^ 64) →
      ∃ e : U64, startWith checked text now = .runs now e ∧ e.toNat = (now.toNat + n * 1000) % 2 ^ 64) := by
  unfold startWith chunkSizeSecs
  rw [(parseUnsigned_iff _ _ _).mpr hn]
  simp only [addTime_eq, sizeMillis_toNat]
  refine ⟨fun h => by rw [if_pos h], fun h => ⟨_, by rw [if_neg h], ?_⟩⟩
  rw [BitVec.toNat_add, sizeMillis_toNat, Nat.add_mod_mod]

/-- Partial: as long as the end of the chunk fits into 64 bits, the first chunk and every chunk created by a swap last as long as asked. -/
theorem C69_partial (checked : Bool) (text : Str) (n : Nat) (hn : IsUnsignedNumeral text (2 ^ 64 - 1) n) (now : U64)
    (hfit : now.toNat + 1000 * n < 2 ^ 64) :
    (∃ e, startWith checked text now = .runs now e ∧ LastsSeconds n now e) ∧
    ∀ reading : U64, reading.toNat + 1 + 1000 * n < 2 ^ 64 →
      ∃ s e, swapWindow checked n reading = some (s, e) ∧ s.toNat = reading.toNat + 1 ∧ LastsSeconds n s e := by
  constructor
  · obtain ⟨e, h1, h2⟩ := (C69_exact checked text n hn now).2 (by rw [Nat.mod_eq_of_lt (by omega)]; omega)
    refine ⟨e, h1, ?_⟩
    unfold LastsSeconds
    rw [h2, Nat.mod_eq_of_lt (by omega)]; omega
  · intro r hr
    have h1 : (r + 1#64).toNat = r.toNat + 1 := by
      rw [BitVec.toNat_add, Nat.mod_eq_of_lt]
      · rfl
      · show r.toNat + 1 < _; omega
    have h2 : (sizeMillis n).toNat = 1000 * n := by rw [sizeMillis_toNat, Nat.mod_eq_of_lt (by omega)]; omega
    refine ⟨r + 1#64, r + 1#64 + sizeMillis n, ?_, h1, ?_⟩
    · unfold swapWindow
      rw [addTime_eq, if_neg (by rintro ⟨-, h⟩; have : (1#64).toNat = 1 := rfl; omega)]
      simp only [addTime_eq]
      rw [if_neg (by rintro ⟨-, h⟩; omega)]; rfl
    · unfold LastsSeconds
      rw [BitVec.toNat_add, h1, h2, Nat.mod_eq_of_lt (by omega)]

/-- With that window, exactly the timestamps strictly between start and `n` seconds later are accepted by the running database
(sled/sled), whatever was inserted before. -/
theorem C69_partial_accepts (B : BinSearch) (checked : Bool) (text : Str) (n : Nat) (hn : IsUnsignedNumeral text (2 ^ 64 - 1) n) (now : U64)
    (hfit : now.toNat + 1000 * n < 2 ^ 64) :
    ∃ e, startWith checked text now = .runs now e ∧
      ∀ (h : Inserts), Fine h → ∀ ls, WFSet ls → ∀ p : TimePoint,
        ((writeTimePoint (sledComp B) ((newSled now e).insertAll (sledComp B) h) ls p).1 = .ok () ↔
          now.toNat < p.ts.toNat ∧ p.ts.toNat < now.toNat + 1000 * n) := by
  obtain ⟨⟨e, h1, h2⟩, -⟩ := C69_partial checked text n hn now hfit
  refine ⟨e, h1, fun h hf ls hls p => ?_⟩
  unfold writeTimePoint
  rw [C27_sled_accepts_iff B now e h hf ls hls p, h2]

theorem isNum_of {text : Str} {n : Nat} (h : parseUnsigned 10 (2 ^ 64 - 1) text = some n) : IsUnsignedNumeral text (2 ^ 64 - 1) n :=
  (parseUnsigned_iff _ _ _).mp h

/-- Non-vacuity: the default option "12000" at an ordinary time. -/
example : IsUnsignedNumeral (ascii "12000".toList) (2 ^ 64 - 1) 12000 ∧ (1600000000000#64).toNat + 1000 * 12000 < 2 ^ 64 ∧
    startWith true (ascii "12000".toList) 1600000000000#64 = .runs 1600000000000#64 1600012000000#64 :=
  ⟨isNum_of (by decide +kernel), by decide, by decide +kernel⟩

/-- Violated: a number of seconds that the option accepts (about 585 million years) gives a chunk of 384 milliseconds. -/
theorem C69_violated : ¬ ∀ (checked : Bool) (text : Str) (n : Nat), IsUnsignedNumeral text (2 ^ 64 - 1) n → ∀ now : U64,
    ∃ e, startWith checked text now = .runs now e ∧ LastsSeconds n now e := by
  intro h
  obtain ⟨e, h1, h2⟩ := h true (ascii "18446744073709552".toList) 18446744073709552 (isNum_of (by decide +kernel)) 1600000000000#64
  have h3 : startWith true (ascii "18446744073709552".toList) 1600000000000#64 = .runs 1600000000000#64 1600000000384#64 := by decide +kernel
  rw [h3] at h1
  cases h1
  revert h2
  unfold LastsSeconds
  decide

/-- Violated: whenever the end of the first chunk does not fit (but the number of milliseconds does), a debug build panics at start-up,
and a release build runs with a current chunk that no insert can ever enter. -/
theorem C69_violated_overflow {σ : Type} (C : Comp σ) (text : Str) (n : Nat) (hn : IsUnsignedNumeral text (2 ^ 64 - 1) n) (now : U64)
    (hms : 1000 * n < 2 ^ 64) (hover : 2 ^ 64 ≤ now.toNat + 1000 * n) :
    startWith true text now = .panicked ∧
    ∃ e, startWith false text now = .runs now e ∧ e.toNat < now.toNat ∧
      ∀ (s : σ) (ls : Labels) (p : TimePoint), (writeTimePoint C (Chunk.new s now e) ls p).1 ≠ .ok () := by
  have hn' := now.isLt
  refine ⟨(C69_exact true text n hn now).1 ⟨rfl, by rw [Nat.mod_eq_of_lt (by omega)]; omega⟩, ?_⟩
  obtain ⟨e, h1, h2⟩ := (C69_exact false text n hn now).2 (by simp)
  have he : e.toNat < now.toNat := by
    rw [h2, Nat.mod_eq_sub_mod (by omega), Nat.mod_eq_of_lt (by omega)]; omega
  refine ⟨e, h1, he, fun s ls p hp => ?_⟩
  unfold writeTimePoint at hp
  rw [C27_outside_rejected C (Chunk.new s now e) rfl ls p (by simp only [Chunk.new]; omega)] at hp
  cases hp

example : IsUnsignedNumeral (ascii "18446744073709550".toList) (2 ^ 64 - 1) 18446744073709550 ∧ 1000 * 18446744073709550 < 2 ^ 64 ∧
    2 ^ 64 ≤ (1600000000000#64).toNat + 1000 * 18446744073709550 := ⟨isNum_of (by decide +kernel), by decide, by decide⟩

/-- With `--chunk_size 0` the server starts, and neither its first chunk nor any chunk created later accepts any point, for every
backend and every state of its stores. -/
theorem C69_zero {σ : Type} (C : Comp σ) (checked : Bool) (text : Str) (hn : IsUnsignedNumeral text (2 ^ 64 - 1) 0) (now : U64) :
    startWith checked text now = .runs now now ∧
    (∀ (s : σ) (ls : Labels) (p : TimePoint), (writeTimePoint C (Chunk.new s now now) ls p).1 ≠ .ok ()) ∧
    ∀ (reading a b : U64), swapWindow checked 0 reading = some (a, b) →
      ∀ (s : σ) (ls : Labels) (p : TimePoint), (writeTimePoint C (Chunk.new s a b) ls p).1 ≠ .ok () := by
  have hno : ∀ (a : U64) (s : σ) (ls : Labels) (p : TimePoint), (writeTimePoint C (Chunk.new s a a) ls p).1 ≠ .ok () := by
    intro a s ls p hp
    unfold writeTimePoint at hp
    rw [C27_outside_rejected C (Chunk.new s a a) rfl ls p (by simp only [Chunk.new]; omega)] at hp
    cases hp
  have hz : sizeMillis 0 = 0#64 := rfl
  refine ⟨?_, hno now, ?_⟩
  · have hlt := now.isLt
    obtain ⟨e, h1, h2⟩ := (C69_exact checked text 0 hn now).2 (by rintro ⟨-, h⟩; rw [Nat.zero_mul, Nat.zero_mod] at h; omega)
    have : e = now := by
      apply BitVec.eq_of_toNat_eq
      rw [h2, Nat.zero_mul, Nat.add_zero, Nat.mod_eq_of_lt hlt]
    rw [h1, this]
  · intro r a b h
    unfold swapWindow at h
    split at h
    · cases h
    · rename_i s hs
      rw [addTime_eq] at h
      split at h
      · cases h
      · simp only [Option.map_some, Option.some.injEq, Prod.mk.injEq, hz, BitVec.add_zero] at h
        obtain ⟨rfl, rfl⟩ := h
        exact hno _

example : IsUnsignedNumeral (ascii "0".toList) (2 ^ 64 - 1) 0 := isNum_of (by decide +kernel)

/-- The default length has two meanings: a chunk opened through `Chunk::new` without an end lasts 12000 milliseconds, a chunk of a
database with the default option 12000 seconds. -/
theorem C69_violated_default {σ : Type} (store : σ) (now : U64) (hfit : now.toNat + 12000000 < 2 ^ 64) :
    (Chunk.newOpts store none none now).end_.toNat = now.toNat + 12000 ∧
    ∃ e, startWith true (ascii "12000".toList) now = .runs now e ∧ e.toNat = now.toNat + 12000000 := by
  constructor
  · have h : (Chunk.newOpts store none none now).end_ = now + 12000#64 := rfl
    rw [h, BitVec.toNat_add, BitVec.toNat_ofNat, Nat.mod_eq_of_lt (by omega : 12000 < 2 ^ 64), Nat.mod_eq_of_lt (by omega)]
  · obtain ⟨⟨e, h1, h2⟩, -⟩ := C69_partial true (ascii "12000".toList) 12000 (isNum_of (by decide +kernel)) now (by omega)
    refine ⟨e, h1, ?_⟩
    unfold LastsSeconds at h2
    omega

example : (1600000000000#64).toNat + 12000000 < 2 ^ 64 := by decide

end Verif
