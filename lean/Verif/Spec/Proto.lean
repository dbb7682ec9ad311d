import Verif.Model.Server
/-! Specification: which byte strings are protobuf (proto3) encodings of which messages, independently of any particular encoder:
fields may come in any order, a later value of a non-repeated field replaces an earlier one, repeated fields accumulate, fields with
other numbers are ignored, varints need not be minimal. -/
namespace Verif

/-- Base-128 varint, least significant group first; all bytes but the last have the top bit set. -/
inductive VarintOf : Nat → Str → Prop
  | last (b : Byte) : b.toNat < 128 → VarintOf b.toNat [b]
  | more (b : Byte) (v : Nat) (s : Str) : 128 ≤ b.toNat → VarintOf v s → VarintOf (b.toNat - 128 + 128 * v) (b :: s)

/-- A varint of a 64-bit number, at most ten bytes; bits above 64 are ignored. -/
def IsVarint (v : Nat) (s : Str) : Prop := ∃ w, VarintOf w s ∧ s.length ≤ 10 ∧ v = w % 2 ^ 64

/-- A field key: field number and wire type, 32 bits. -/
def IsKey (num wt : Nat) (s : Str) : Prop := ∃ v, IsVarint v s ∧ v % 2 ^ 32 = 8 * num + wt ∧ wt < 8 ∧ 0 < num

/-- Length-delimited bytes, 32-bit length. -/
def IsDelimited (p s : Str) : Prop := ∃ v n, IsVarint v n ∧ v % 2 ^ 32 = p.length ∧ s = n ++ p

/-- Length-delimited nested message, 64-bit length. -/
def IsNested (p s : Str) : Prop := ∃ n, IsVarint p.length n ∧ s = n ++ p

/-- Two's complement. -/
def signed (v : Nat) : Int := if v < 2 ^ 63 then (v : Int) else (v : Int) - 2 ^ 64

/-- Little-endian value of eight bytes. -/
def littleEndian : Str → Nat
  | [] => 0
  | b :: s => b.toNat + 256 * littleEndian s

/-- A complete field with a number for which `known` fails, of any wire type but groups. -/
inductive UnknownField (known : Nat → Prop) : Str → Prop
  | varint {num v : Nat} {k p : Str} : ¬known num → IsKey num 0 k → IsVarint v p → UnknownField known (k ++ p)
  | fixed64 {num : Nat} {k p : Str} : ¬known num → IsKey num 1 k → p.length = 8 → UnknownField known (k ++ p)
  | bytes {num : Nat} {k p d : Str} : ¬known num → IsKey num 2 k → IsDelimited d p → UnknownField known (k ++ p)
  | fixed32 {num : Nat} {k p : Str} : ¬known num → IsKey num 5 k → p.length = 4 → UnknownField known (k ++ p)

/-- Messages built field by field. -/
inductive Built {M : Type} (F : M → Str → M → Prop) (m0 : M) : M → Str → Prop
  | nil : Built F m0 m0 []
  | snoc {m m' : M} {s t : Str} : Built F m0 m s → F m t m' → Built F m0 m' (s ++ t)

/-- message Sample { double value = 1; int64 timestamp = 2; } -/
inductive SampleField : Sample → Str → Sample → Prop
  | value {m : Sample} {k p : Str} : IsKey 1 1 k → p.length = 8 → SampleField m (k ++ p) { m with value := BitVec.ofNat 64 (littleEndian p) }
  | timestamp {m : Sample} {k p : Str} {v : Nat} : IsKey 2 0 k → IsVarint v p → SampleField m (k ++ p) { m with timestamp := signed v }
  | other {m : Sample} {t : Str} : UnknownField (fun n => n = 1 ∨ n = 2) t → SampleField m t m
def IsSample (m : Sample) (s : Str) : Prop := Built SampleField ⟨0#64, 0⟩ m s

/-- message Label { string name = 1; string value = 2; } -/
inductive LabelField (utf8 : Str → Bool) : Label → Str → Label → Prop
  | name {m : Label} {k p d : Str} : IsKey 1 2 k → IsDelimited d p → utf8 d = true → LabelField utf8 m (k ++ p) { m with key := d }
  | value {m : Label} {k p d : Str} : IsKey 2 2 k → IsDelimited d p → utf8 d = true → LabelField utf8 m (k ++ p) { m with value := d }
  | other {m : Label} {t : Str} : UnknownField (fun n => n = 1 ∨ n = 2) t → LabelField utf8 m t m
def IsLabel (utf8 : Str → Bool) (m : Label) (s : Str) : Prop := Built (LabelField utf8) ⟨[], []⟩ m s

/-- message TimeSeries { repeated Label labels = 1; repeated Sample samples = 2; } -/
inductive SeriesField (utf8 : Str → Bool) : PSeries → Str → PSeries → Prop
  | label {m : PSeries} {k p d : Str} {l : Label} : IsKey 1 2 k → IsNested d p → IsLabel utf8 l d →
      SeriesField utf8 m (k ++ p) { m with labels := m.labels ++ [l] }
  | sample {m : PSeries} {k p d : Str} {x : Sample} : IsKey 2 2 k → IsNested d p → IsSample x d →
      SeriesField utf8 m (k ++ p) { m with samples := m.samples ++ [x] }
  | other {m : PSeries} {t : Str} : UnknownField (fun n => n = 1 ∨ n = 2) t → SeriesField utf8 m t m
def IsSeries (utf8 : Str → Bool) (m : PSeries) (s : Str) : Prop := Built (SeriesField utf8) ⟨[], []⟩ m s

/-- message WriteRequest { repeated TimeSeries timeseries = 1; } -- and QueryResult, which has the same layout -/
inductive WriteField (utf8 : Str → Bool) : List PSeries → Str → List PSeries → Prop
  | series {m : List PSeries} {k p d : Str} {x : PSeries} : IsKey 1 2 k → IsNested d p → IsSeries utf8 x d → WriteField utf8 m (k ++ p) (m ++ [x])
  | other {m : List PSeries} {t : Str} : UnknownField (fun n => n = 1) t → WriteField utf8 m t m
def IsWrite (utf8 : Str → Bool) (m : List PSeries) (s : Str) : Prop := Built (WriteField utf8) [] m s

/-- message ReadResponse { repeated QueryResult results = 1; } -/
inductive ResponseField (utf8 : Str → Bool) : List (List PSeries) → Str → List (List PSeries) → Prop
  | result {m : List (List PSeries)} {k p d : Str} {x : List PSeries} : IsKey 1 2 k → IsNested d p → IsWrite utf8 x d →
      ResponseField utf8 m (k ++ p) (m ++ [x])
  | other {m : List (List PSeries)} {t : Str} : UnknownField (fun n => n = 1) t → ResponseField utf8 m t m
def IsResponse (utf8 : Str → Bool) (m : List (List PSeries)) (s : Str) : Prop := Built (ResponseField utf8) [] m s

/-- enum Type { EQ = 0; NEQ = 1; RE = 2; NRE = 3; } -/
def typeNumber : MatcherType → Nat
  | .eq => 0
  | .neq => 1
  | .re => 2
  | .nre => 3

/-- message LabelMatcher { Type type = 1; string name = 2; string value = 3; } -/
inductive MatcherField (utf8 : Str → Bool) : LabelMatcher → Str → LabelMatcher → Prop
  | type {m : LabelMatcher} {k p : Str} {v : Nat} {t : MatcherType} : IsKey 1 0 k → IsVarint v p → v % 2 ^ 32 = typeNumber t →
      MatcherField utf8 m (k ++ p) { m with type := t }
  | unknownType {m : LabelMatcher} {k p : Str} {v : Nat} : IsKey 1 0 k → IsVarint v p → (∀ t, v % 2 ^ 32 ≠ typeNumber t) → MatcherField utf8 m (k ++ p) m
  | name {m : LabelMatcher} {k p d : Str} : IsKey 2 2 k → IsDelimited d p → utf8 d = true → MatcherField utf8 m (k ++ p) { m with name := d }
  | value {m : LabelMatcher} {k p d : Str} : IsKey 3 2 k → IsDelimited d p → utf8 d = true → MatcherField utf8 m (k ++ p) { m with value := d }
  | other {m : LabelMatcher} {t : Str} : UnknownField (fun n => n = 1 ∨ n = 2 ∨ n = 3) t → MatcherField utf8 m t m
def IsMatcher (utf8 : Str → Bool) (m : LabelMatcher) (s : Str) : Prop := Built (MatcherField utf8) ⟨.eq, [], []⟩ m s

/-- message ReadHints { int64 step_ms = 1; string func = 2; int64 start_ms = 3; int64 end_ms = 4; }, contents ignored -/
inductive HintsField (utf8 : Str → Bool) : Unit → Str → Unit → Prop
  | int {num v : Nat} {k p : Str} : num = 1 ∨ num = 3 ∨ num = 4 → IsKey num 0 k → IsVarint v p → HintsField utf8 () (k ++ p) ()
  | func {k p d : Str} : IsKey 2 2 k → IsDelimited d p → utf8 d = true → HintsField utf8 () (k ++ p) ()
  | other {t : Str} : UnknownField (fun n => n = 1 ∨ n = 2 ∨ n = 3 ∨ n = 4) t → HintsField utf8 () t ()
def IsHints (utf8 : Str → Bool) (s : Str) : Prop := Built (HintsField utf8) () () s

/-- message Query { int64 start_timestamp_ms = 1; int64 end_timestamp_ms = 2; repeated LabelMatcher matchers = 3; ReadHints hints = 4; } -/
inductive QueryField (utf8 : Str → Bool) : PQuery → Str → PQuery → Prop
  | start {m : PQuery} {k p : Str} {v : Nat} : IsKey 1 0 k → IsVarint v p → QueryField utf8 m (k ++ p) { m with start_ := signed v }
  | end_ {m : PQuery} {k p : Str} {v : Nat} : IsKey 2 0 k → IsVarint v p → QueryField utf8 m (k ++ p) { m with end_ := signed v }
  | matcher {m : PQuery} {k p d : Str} {x : LabelMatcher} : IsKey 3 2 k → IsNested d p → IsMatcher utf8 x d →
      QueryField utf8 m (k ++ p) { m with matchers := m.matchers ++ [x] }
  | hints {m : PQuery} {k p d : Str} : IsKey 4 2 k → IsNested d p → IsHints utf8 d → QueryField utf8 m (k ++ p) m
  | other {m : PQuery} {t : Str} : UnknownField (fun n => n = 1 ∨ n = 2 ∨ n = 3 ∨ n = 4) t → QueryField utf8 m t m
def IsQuery (utf8 : Str → Bool) (m : PQuery) (s : Str) : Prop := Built (QueryField utf8) ⟨0, 0, []⟩ m s

/-- A sequence of varints. -/
inductive Varints : Str → Prop
  | nil : Varints []
  | cons {v : Nat} {p s : Str} : IsVarint v p → Varints s → Varints (p ++ s)

/-- message ReadRequest { repeated Query queries = 1; repeated ResponseType accepted_response_types = 2; } -- response types
as single values or packed, ignored -/
inductive ReadField (utf8 : Str → Bool) : List PQuery → Str → List PQuery → Prop
  | query {m : List PQuery} {k p d : Str} {x : PQuery} : IsKey 1 2 k → IsNested d p → IsQuery utf8 x d → ReadField utf8 m (k ++ p) (m ++ [x])
  | accepted {m : List PQuery} {k p : Str} {v : Nat} : IsKey 2 0 k → IsVarint v p → ReadField utf8 m (k ++ p) m
  | packed {m : List PQuery} {k p d : Str} : IsKey 2 2 k → IsDelimited d p → Varints d → ReadField utf8 m (k ++ p) m
  | other {m : List PQuery} {t : Str} : UnknownField (fun n => n = 1 ∨ n = 2) t → ReadField utf8 m t m
def IsRead (utf8 : Str → Bool) (m : List PQuery) (s : Str) : Prop := Built (ReadField utf8) [] m s

end Verif
