import Verif.Lemmas.ChunkConc
import Verif.Lemmas.ConcRead
namespace Verif
open List

/-! ### The query made of elementary reads -/

theorem readOnly_get {α β : Type} {f : SChunk → α} {k : α → Proc SChunk β} (h : ∀ a, ReadOnly (k a)) : ReadOnly (Proc.get f k) :=
  .act (fun _ => rfl) (fun s => h (f s))

theorem containsProc_readOnly {β : Type} {k : Res (List (List U64)) → Proc SChunk β} (hk : ∀ r, ReadOnly (k r)) (ls : Labels)
    (acc : List (List U64)) : ReadOnly (containsProc k ls acc) := by
  induction ls generalizing acc with
  | nil => exact hk _
  | cons l ls ih =>
    rw [containsProc]
    apply readOnly_get
    intro r
    rcases r with (_ | t) | e | _
    · exact ih acc
    · exact ih (acc ++ [t])
    · exact hk _
    · exact hk _

theorem metaProc_readOnly {β : Type} {k : Res (List (U64 × Labels)) → Proc SChunk β} (hk : ∀ r, ReadOnly (k r)) (is : List U64)
    (acc : List (U64 × Labels)) : ReadOnly (metaProc k is acc) := by
  induction is generalizing acc with
  | nil => exact hk _
  | cons l ls ih =>
    rw [metaProc]
    apply readOnly_get
    intro r
    rcases r with (_ | t) | e | _
    · exact ih acc
    · exact ih (acc ++ [t])
    · exact hk _
    · exact hk _

theorem readProc_readOnly (B : BinSearch) (a b : U64) (l : List (U64 × Labels)) (acc : List Series) : ReadOnly (readProc B a b l acc) := by
  induction l generalizing acc with
  | nil => exact .ret _
  | cons x l ih =>
    obtain ⟨i, ls⟩ := x
    rw [readProc]
    apply readOnly_get
    intro r
    rcases r with d | e | _
    · exact ih _
    · exact .ret _
    · exact .ret _

theorem queryProc_readOnly (B : BinSearch) (q : Labels) (a b : U64) : ReadOnly (queryProc B q a b) := by
  unfold queryProc
  apply readOnly_get
  intro st
  split
  · apply containsProc_readOnly
    intro r
    rcases r with ts | e | _
    · apply metaProc_readOnly
      intro m
      rcases m with m | e | _
      · exact readProc_readOnly _ _ _ _ _
      · exact .ret _
      · exact .ret _
    · exact .ret _
    · exact .ret _
  · exact .ret _

theorem containsProc_run {β : Type} (k : Res (List (List U64)) → Proc SChunk β) (ls : Labels) (acc : List (List U64)) (c : SChunk) :
    (containsProc k ls acc).run c =
      (k ((Res.mapM (sledGetId c.store.idx) ls).bind fun ts => .ok (acc ++ ts.filterMap id))).run c := by
  induction ls generalizing acc with
  | nil => simp [containsProc, Res.mapM]
  | cons l ls ih =>
    simp only [containsProc, Proc.get, Proc.run, id, Res.mapM]
    rcases h : sledGetId c.store.idx l with (_ | t) | e | _
    · simp only [Res.bind_ok]
      rw [ih]
      rcases Res.mapM (sledGetId c.store.idx) ls with ts | e | _ <;> simp
    · simp only [Res.bind_ok]
      rw [ih]
      rcases Res.mapM (sledGetId c.store.idx) ls with ts | e | _ <;> simp
    · simp
    · simp

theorem metaProc_run {β : Type} (k : Res (List (U64 × Labels)) → Proc SChunk β) (is : List U64) (acc : List (U64 × Labels)) (c : SChunk) :
    (metaProc k is acc).run c =
      (k ((Res.mapM (sledMeta1 c.store.idx) is).bind fun ts => .ok (acc ++ ts.filterMap id))).run c := by
  induction is generalizing acc with
  | nil => simp [metaProc, Res.mapM]
  | cons l ls ih =>
    simp only [metaProc, Proc.get, Proc.run, id, Res.mapM]
    rcases h : sledMeta1 c.store.idx l with (_ | t) | e | _
    · simp only [Res.bind_ok]
      rw [ih]
      rcases Res.mapM (sledMeta1 c.store.idx) ls with ts | e | _ <;> simp
    · simp only [Res.bind_ok]
      rw [ih]
      rcases Res.mapM (sledMeta1 c.store.idx) ls with ts | e | _ <;> simp
    · simp
    · simp

theorem readProc_run (B : BinSearch) (a b : U64) (l : List (U64 × Labels)) (acc : List Series) (c : SChunk) :
    (readProc B a b l acc).run c = ((readAll (sledComp B) c.store a b l).bind fun r => .ok (acc ++ r), c) := by
  induction l generalizing acc with
  | nil => simp [readProc, readAll, Proc.run]
  | cons x l ih =>
    obtain ⟨i, ls⟩ := x
    have e : readAll (sledComp B) c.store a b ((i, ls) :: l) = (sledRead B c.store.ser i a b).bind fun d =>
        (readAll (sledComp B) c.store a b l).bind fun r => .ok (if d.length = 0 then r else ⟨i, ls, d⟩ :: r) := rfl
    rw [e]
    simp only [readProc, Proc.get, Proc.run, id]
    rcases h : sledRead B c.store.ser i a b with d | e | _
    · simp only [Res.bind_ok]
      rw [ih]
      rcases readAll (sledComp B) c.store a b l with r | e | _
      · simp only [Res.bind_ok]
        split <;> simp
      · simp
      · simp
    · simp [Proc.run]
    · simp [Proc.run]

/-- The elementary reads of a query, run without interruption, are the query. -/
theorem queryProc_run (B : BinSearch) (q : Labels) (a b : U64) (c : SChunk) (hp : c.poisoned = false) :
    (queryProc B q a b).run c = (c.query (sledComp B) q a b, c) := by
  unfold queryProc Chunk.query
  simp only [Proc.get, Proc.run, id, hp, Bool.false_eq_true, if_false]
  by_cases h : c.isWithRange a b = true
  · simp only [h, if_true]
    rw [containsProc_run]
    have hm : (sledComp B).metadata c.store q = sledMetadata c.store.idx q := rfl
    rw [hm]
    unfold sledMetadata sledContains
    rcases Res.mapM (sledGetId c.store.idx) q with ts | e | _
    · simp only [Res.bind_ok, List.nil_append]
      rw [metaProc_run]
      rcases Res.mapM (sledMeta1 c.store.idx) (intersectAll (ts.filterMap id)) with ms | e | _
      · simp only [Res.bind_ok, List.nil_append]
        rw [readProc_run]
        rcases readAll (sledComp B) c.store a b (ms.filterMap id) <;> simp
      · simp [Proc.run]
      · simp [Proc.run]
    · simp [Proc.run]
    · simp [Proc.run]
  · simp only [h, Bool.false_eq_true, if_false, Proc.run]

/-! ### One series changes while the query runs -/

theorem containsProc_atomic {β : Type} {s s' : SChunk} (hidx : s.store.idx = s'.store.idx) {k : Res (List (List U64)) → Proc SChunk β}
    (ls : Labels) (acc : List (List U64))
    (hk : Atomic s s' (k ((Res.mapM (sledGetId s.store.idx) ls).bind fun ts => .ok (acc ++ ts.filterMap id)))) :
    Atomic s s' (containsProc k ls acc) := by
  induction ls generalizing acc with
  | nil => simpa [containsProc, Res.mapM] using hk
  | cons l ls ih =>
    rw [containsProc]
    apply Atomic.same (by simp only [hidx])
    rcases h : sledGetId s.store.idx l with (_ | t) | e | _
    · simp only []
      apply ih
      simp only [Res.mapM, h, Res.bind_ok] at hk
      rcases h2 : Res.mapM (sledGetId s.store.idx) ls with ts | e | _ <;> rw [h2] at hk <;> simpa using hk
    · simp only []
      apply ih
      simp only [Res.mapM, h, Res.bind_ok] at hk
      rcases h2 : Res.mapM (sledGetId s.store.idx) ls with ts | e | _ <;> rw [h2] at hk <;> simpa using hk
    · simpa [Res.mapM, h] using hk
    · simpa [Res.mapM, h] using hk

theorem metaProc_atomic {β : Type} {s s' : SChunk} (hidx : s.store.idx = s'.store.idx) {k : Res (List (U64 × Labels)) → Proc SChunk β}
    (is : List U64) (acc : List (U64 × Labels))
    (hk : Atomic s s' (k ((Res.mapM (sledMeta1 s.store.idx) is).bind fun ts => .ok (acc ++ ts.filterMap id)))) :
    Atomic s s' (metaProc k is acc) := by
  induction is generalizing acc with
  | nil => simpa [metaProc, Res.mapM] using hk
  | cons l ls ih =>
    rw [metaProc]
    apply Atomic.same (by simp only [hidx])
    rcases h : sledMeta1 s.store.idx l with (_ | t) | e | _
    · simp only []
      apply ih
      simp only [Res.mapM, h, Res.bind_ok] at hk
      rcases h2 : Res.mapM (sledMeta1 s.store.idx) ls with ts | e | _ <;> rw [h2] at hk <;> simpa using hk
    · simp only []
      apply ih
      simp only [Res.mapM, h, Res.bind_ok] at hk
      rcases h2 : Res.mapM (sledMeta1 s.store.idx) ls with ts | e | _ <;> rw [h2] at hk <;> simpa using hk
    · simpa [Res.mapM, h] using hk
    · simpa [Res.mapM, h] using hk

theorem readProc_same (B : BinSearch) {s s' : SChunk} {a b : U64} (l : List (U64 × Labels)) (acc : List Series)
    (h : ∀ x ∈ l, sledRead B s.store.ser x.1 a b = sledRead B s'.store.ser x.1 a b) (n : Nat) :
    (readProc B a b l acc).switch n s s' = ((readProc B a b l acc).run s).1 := by
  have hrun : ∀ (l : List (U64 × Labels)) (acc : List Series), (∀ x ∈ l, sledRead B s.store.ser x.1 a b = sledRead B s'.store.ser x.1 a b) →
      ((readProc B a b l acc).run s').1 = ((readProc B a b l acc).run s).1 := by
    intro l
    induction l with
    | nil => intro acc _; rfl
    | cons x l ih =>
      intro acc h
      obtain ⟨i, ls⟩ := x
      simp only [readProc, Proc.get, Proc.run, id]
      have := h (i, ls) (by simp)
      simp only [] at this
      rw [← this]
      rcases sledRead B s.store.ser i a b with d | e | _
      · exact ih _ (fun y hy => h y (by simp [hy]))
      · rfl
      · rfl
  induction l generalizing acc n with
  | nil => cases n <;> rfl
  | cons x l ih =>
    cases n with
    | zero => exact hrun _ _ h
    | succ n =>
      obtain ⟨i, ls⟩ := x
      simp only [readProc, Proc.get, Proc.switch, Proc.run, id]
      rcases sledRead B s.store.ser i a b with d | e | _
      · exact ih _ (fun y hy => h y (by simp [hy])) n
      · cases n <;> rfl
      · cases n <;> rfl

theorem readProc_atomic (B : BinSearch) {s s' : SChunk} {a b i : U64} (l : List (U64 × Labels)) (acc : List Series)
    (hn : (l.map (·.1)).Nodup) (h : ∀ j, j ≠ i → sledRead B s.store.ser j a b = sledRead B s'.store.ser j a b) :
    Atomic s s' (readProc B a b l acc) := by
  induction l generalizing acc with
  | nil => exact .ret _ _ _
  | cons x l ih =>
    obtain ⟨j, ls⟩ := x
    simp only [List.map_cons, List.nodup_cons] at hn
    rw [readProc]
    by_cases hj : j = i
    · apply Atomic.last
      intro n
      rcases sledRead B s.store.ser j a b with d | e | _
      · apply readProc_same
        intro y hy
        apply h
        intro e
        exact hn.1 (by rw [hj, ← e]; exact List.mem_map_of_mem hy)
      · cases n <;> rfl
      · cases n <;> rfl
    · apply Atomic.same (h j hj)
      rcases sledRead B s.store.ser j a b with d | e | _
      · exact ih _ hn.2
      · exact .ret _ _ _
      · exact .ret _ _ _

/-- A query during which the points of one series change returns the result before or the result after. -/
theorem queryProc_atomic (B : BinSearch) {s s' : SChunk} {q : Labels} {a b i : U64} (h1 : s.start_ = s'.start_) (h2 : s.end_ = s'.end_)
    (hidx : s.store.idx = s'.store.idx) (h : ∀ j, j ≠ i → sledRead B s.store.ser j a b = sledRead B s'.store.ser j a b)
    (hn : ∀ m, sledMetadata s.store.idx q = .ok m → (m.map (·.1)).Nodup) : Atomic s s' (queryProc B q a b) := by
  unfold queryProc
  apply Atomic.same
  · simp only [Chunk.isWithRange, h1, h2]
  · simp only []
    split
    · apply containsProc_atomic hidx
      unfold sledMetadata sledContains at hn
      rcases hc : Res.mapM (sledGetId s.store.idx) q with ts | e | _
      · rw [hc] at hn
        simp only [Res.bind_ok, List.nil_append] at hn ⊢
        apply metaProc_atomic hidx
        rcases hm : Res.mapM (sledMeta1 s.store.idx) (intersectAll (ts.filterMap id)) with ms | e | _
        · rw [hm] at hn
          simp only [Res.bind_ok, List.nil_append] at hn ⊢
          exact readProc_atomic B _ _ (hn _ rfl) h
        · exact .ret _ _ _
        · exact .ret _ _ _
      · exact .ret _ _ _
      · exact .ret _ _ _
    · exact .ret _ _ _

/-! ### Reads scattered over several states -/

theorem containsProc_allOut {β : Type} {I : SChunk → Prop} {Q : β → Prop} {k : Res (List (List U64)) → Proc SChunk β}
    {G : Label → Option (List U64) → Prop} (ls : Labels) (acc : List (List U64))
    (hg : ∀ m, I m → ∀ l ∈ ls, ∃ o, sledGetId m.store.idx l = .ok o ∧ G l o)
    (hk : ∀ os, List.Forall₂ G ls os → AllOut I Q (k (.ok (acc ++ os.filterMap id)))) : AllOut I Q (containsProc k ls acc) := by
  induction ls generalizing acc with
  | nil => simpa [containsProc] using hk [] .nil
  | cons l ls ih =>
    rw [containsProc]
    apply AllOut.get
    intro m hm
    obtain ⟨o, ho, hG⟩ := hg m hm l (by simp)
    rw [ho]
    rcases o with _ | t
    · exact ih acc (fun m hm x hx => hg m hm x (by simp [hx])) (fun os hos => by simpa using hk (none :: os) (.cons hG hos))
    · exact ih (acc ++ [t]) (fun m hm x hx => hg m hm x (by simp [hx])) (fun os hos => by simpa using hk (some t :: os) (.cons hG hos))

theorem metaProc_allOut {β : Type} {I : SChunk → Prop} {Q : β → Prop} {k : Res (List (U64 × Labels)) → Proc SChunk β}
    {G : U64 → Option (U64 × Labels) → Prop} (is : List U64) (acc : List (U64 × Labels))
    (hg : ∀ m, I m → ∀ i ∈ is, ∃ o, sledMeta1 m.store.idx i = .ok o ∧ G i o)
    (hk : ∀ os, List.Forall₂ G is os → AllOut I Q (k (.ok (acc ++ os.filterMap id)))) : AllOut I Q (metaProc k is acc) := by
  induction is generalizing acc with
  | nil => simpa [metaProc] using hk [] .nil
  | cons l ls ih =>
    rw [metaProc]
    apply AllOut.get
    intro m hm
    obtain ⟨o, ho, hG⟩ := hg m hm l (by simp)
    rw [ho]
    rcases o with _ | t
    · exact ih acc (fun m hm x hx => hg m hm x (by simp [hx])) (fun os hos => by simpa using hk (none :: os) (.cons hG hos))
    · exact ih (acc ++ [t]) (fun m hm x hx => hg m hm x (by simp [hx])) (fun os hos => by simpa using hk (some t :: os) (.cons hG hos))

theorem readProc_allOut (B : BinSearch) {I : SChunk → Prop} {P : Series → Prop} {a b : U64} (l : List (U64 × Labels)) (acc : List Series)
    (ha : ∀ x ∈ acc, P x)
    (hg : ∀ m, I m → ∀ x ∈ l, sledRead B m.store.ser x.1 a b ≠ .panic ∧
      ∀ d, sledRead B m.store.ser x.1 a b = .ok d → d ≠ [] → P ⟨x.1, x.2, d⟩) :
    AllOut I (fun r => r ≠ .panic ∧ ∀ ss, r = .ok ss → ∀ x ∈ ss, P x) (readProc B a b l acc) := by
  induction l generalizing acc with
  | nil => exact .ret ⟨by simp, by intro ss e; cases e; exact ha⟩
  | cons x l ih =>
    obtain ⟨i, ls⟩ := x
    rw [readProc]
    apply AllOut.get
    intro m hm
    obtain ⟨h1, h2⟩ := hg m hm (i, ls) (by simp)
    simp only [] at h1 h2
    rcases h : sledRead B m.store.ser i a b with d | e | _
    · apply ih _ _ (fun m hm x hx => hg m hm x (by simp [hx]))
      split
      · exact ha
      · rename_i hd
        intro x hx
        rcases List.mem_append.mp hx with hx | hx
        · exact ha x hx
        · rw [List.mem_singleton.mp hx]
          exact h2 d h (by intro e; exact hd (by simp [e]))
    · exact .ret ⟨by simp, by intro ss e; cases e⟩
    · exact absurd h h1

end Verif
