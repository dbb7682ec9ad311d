import Verif.Lemmas.Kit
namespace Verif
open List

/-! ### Crash states of an insert -/

theorem kit_wr_rep (K : Kit) {c : Created} {ser : U64 → List TimePoint} {s : SledStores} (h : (kitRefines K).Rep c ser s) (i : U64) (p : TimePoint) :
    (K.wr s.ser i p).1 ≠ .panic := by
  have e := kitComp_write K s i p
  by_cases ha : K.st.accepts (ser i) p = true
  · have := ((kitRefines K).writeYes h ha).1
    rw [e] at this
    simp only at this
    rw [this]; simp
  · have := (kitRefines K).writeNo h (by simpa using ha)
    rw [e] at this
    have := (Prod.ext_iff.mp this).1
    simp only at this
    rw [this]; simp

theorem afterWrite_of {c : SChunk} {r : Res Unit × KV} (h : r.1 ≠ .panic) : afterWrite c r = c.withSer r.2 := by
  unfold afterWrite
  split
  · rename_i e; exact absurd e h
  · rfl

theorem kitInsert_upTo_outside (K : Kit) {c : SChunk} (hok : c.poisoned = false) {w : Labels × TimePoint} (hr : c.isInRange w.2.ts = false) (n : Nat) :
    (kitInsert K w).upTo n c = c := by
  match n with
  | 0 => rfl
  | n + 1 =>
    simp only [kitInsert, Proc.get, Proc.upTo, id, hok, hr, Bool.false_eq_true, if_false]
    cases n <;> rfl

theorem kitInsert_existing (K : Kit) {lo hi : U64} {h : Inserts} {c : SChunk} (hc : ChunkRep (kitRefines K) lo hi h c)
    {ls : Labels} (hls : WFSet ls) {p : TimePoint} (hin : inside lo hi p = true) {i : U64} (hi' : specByLabels (numbered h) ls = some i) :
    (c.insert (kitComp K) ls p).2 = c.withSer (K.wr c.store.ser i p).2 ∧
    ∀ n, (kitInsert K (ls, p)).upTo n c = c ∨ (kitInsert K (ls, p)).upTo n c = c.withSer (K.wr c.store.ser i p).2 := by
  have hb : K.byLabels c.store.idx ls = _ := (kitRefines K).byLabels hc.rep hls
  rw [hi'] at hb
  have hr : c.isInRange p.ts = true := by rw [inside_iff hc.start_ hc.end_]; exact hin
  have hw := afterWrite_of (c := c) (kit_wr_rep K hc.rep i p)
  constructor
  · rw [← kitInsert_run K (ls, p)]
    simp only [kitInsert, Proc.get, Proc.run, id, hc.ok, hr, hb, Bool.false_eq_true, if_false, if_true, kitWrite_run, hw]
  · intro n
    match n with
    | 0 => exact Or.inl rfl
    | 1 => exact Or.inl (by simp only [kitInsert, Proc.get, Proc.upTo, id])
    | n + 2 =>
      have : (kitInsert K (ls, p)).upTo (n + 2) c = (kitWrite K i p fun _ => .ok ()).upTo n c := by
        simp only [kitInsert, Proc.get, Proc.upTo, id, hc.ok, hr, hb, Bool.false_eq_true, if_false, if_true]
      rw [this, ← hw]
      exact kitWrite_upTo K i p _ c n

/-- `create_index` for a new label set does its sets. -/
theorem kitCreate_new (K : Kit) {c : Created} {s : SledStores} {ser : U64 → List TimePoint} (h : (kitRefines K).Rep c ser s) {ls : Labels} (hls : WFSet ls)
    (hn : specByLabels c ls = none) (i : U64) (k : Proc SChunk (Res Unit)) (d : SChunk) (hd : d.store = s) :
    (kitComp K).create s ls i = (.ok (), { s with idx := K.created ls i s.idx }) ∧
    ∀ n, ∃ m, (kitCreate K ls i k).upTo n d = (kitSets K ls i k).upTo m d := by
  subst hd
  have hL := h.1.byLabels ls hls
  obtain ⟨S, st, ix⟩ := K
  cases ix with
  | tikv => exact ⟨rfl, fun n => ⟨n, rfl⟩⟩
  | sled =>
    have hL : d.store.idx (encodeLabels ls true) = none := by
      have : d.store.idx ([] ++ encodeLabels ls true) = (specByLabels c ls).map fmtId := hL
      rw [hn] at this
      simpa using this
    refine ⟨?_, ?_⟩
    · simp only [kitComp, sledCreate, hL, Option.isSome_none, Bool.false_eq_true, if_false, Kit.created]
    · intro n
      rw [kitCreate_eq]
      match n with
      | 0 => exact ⟨0, rfl⟩
      | n + 1 =>
        refine ⟨n, ?_⟩
        simp only [Proc.get, Proc.upTo, id, hL, Option.isSome_none, Bool.false_eq_true, if_false]

theorem kitInsert_new (K : Kit) {lo hi : U64} {h : Inserts} {c : SChunk} (hc : ChunkRep (kitRefines K) lo hi h c)
    {ls : Labels} (hls : WFSet ls) {p : TimePoint} (hin : inside lo hi p = true) (hi' : specByLabels (numbered h) ls = none) (n : Nat) :
    CrashState c (c.insert (kitComp K) ls p).2 ((kitInsert K (ls, p)).upTo n c) := by
  have hb : K.byLabels c.store.idx ls = _ := (kitRefines K).byLabels hc.rep hls
  rw [hi'] at hb
  have hr : c.isInRange p.ts = true := by rw [inside_iff hc.start_ hc.end_]; exact hin
  obtain ⟨hcr, hup⟩ := kitCreate_new K hc.rep hls hi' (idNext c.nextId).1 (kitWrite K (idNext c.nextId).1 p id)
    ({ c with nextId := (idNext c.nextId).2 } : SChunk) rfl
  -- no panic: what the storage accepts does not depend on the index
  have hnp : (K.wr c.store.ser (idNext c.nextId).1 p).1 ≠ .panic := kit_wr_rep K hc.rep _ _
  have hfin : (c.insert (kitComp K) ls p).2 = ({ c with nextId := (idNext c.nextId).2, store := ⟨K.created ls (idNext c.nextId).1 c.store.idx,
      (K.wr c.store.ser (idNext c.nextId).1 p).2⟩ } : SChunk) := by
    rw [← kitInsert_run K (ls, p)]
    simp only [kitInsert, Proc.get, Proc.run, id, hc.ok, hr, hb, Bool.false_eq_true, if_false, if_true, kitCreate_run, hcr, kitWrite_run]
    rw [afterWrite_of hnp]
    rfl
  rw [hfin]
  match n with
  | 0 => exact ⟨rfl, rfl, rfl, Or.inl rfl, fun _ => Or.inl rfl⟩
  | 1 =>
    have : (kitInsert K (ls, p)).upTo 1 c = c := by simp only [kitInsert, Proc.get, Proc.upTo, id]
    rw [this]; exact ⟨rfl, rfl, rfl, Or.inl rfl, fun _ => Or.inl rfl⟩
  | 2 =>
    have : (kitInsert K (ls, p)).upTo 2 c = c := by
      simp only [kitInsert, Proc.get, Proc.upTo, id, hc.ok, hr, Bool.false_eq_true, if_false, if_true]
    rw [this]; exact ⟨rfl, rfl, rfl, Or.inl rfl, fun _ => Or.inl rfl⟩
  | n + 3 =>
    have e3 : (kitInsert K (ls, p)).upTo (n + 3) c = (kitCreate K ls (idNext c.nextId).1 (kitWrite K (idNext c.nextId).1 p id)).upTo n
        ({ c with nextId := (idNext c.nextId).2 } : SChunk) := by
      simp only [kitInsert, Proc.get, Proc.upTo, id, hc.ok, hr, hb, Bool.false_eq_true, if_false, if_true]
    rw [e3]
    obtain ⟨m, hm⟩ := hup n
    rw [hm]
    rcases kitSets_upTo K hls (idNext c.nextId).1 (kitWrite K (idNext c.nextId).1 p id) ({ c with nextId := (idNext c.nextId).2 } : SChunk) m with
      ⟨kv, e4, hkv⟩ | ⟨m', e4⟩
    · rw [e4]
      exact ⟨rfl, rfl, rfl, Or.inl rfl, hkv⟩
    · rw [e4]
      rcases kitWrite_upTo K (idNext c.nextId).1 p id (SChunk.withIdx ({ c with nextId := (idNext c.nextId).2 } : SChunk)
        (K.created ls (idNext c.nextId).1 c.store.idx)) m' with e5 | e5
      · rw [e5]
        exact ⟨rfl, rfl, rfl, Or.inl rfl, fun _ => Or.inr rfl⟩
      · have hw := e5.trans (afterWrite_of hnp)
        rw [hw]
        exact ⟨rfl, rfl, rfl, Or.inr rfl, fun _ => Or.inr rfl⟩

/-- Every crash point of an insert on a chunk that represents a history. -/
theorem kitInsert_crash (K : Kit) {lo hi : U64} {h : Inserts} {c : SChunk} (hc : ChunkRep (kitRefines K) lo hi h c)
    {ls : Labels} (hls : WFSet ls) (p : TimePoint) (n : Nat) :
    CrashState c (c.insert (kitComp K) ls p).2 ((kitInsert K (ls, p)).upTo n c) := by
  by_cases hin : inside lo hi p = true
  · rcases hs : specByLabels (numbered h) ls with _ | i
    · exact kitInsert_new K hc hls hin hs n
    · obtain ⟨h1, h2⟩ := kitInsert_existing K hc hls hin hs
      rcases h2 n with e | e
      · rw [e]; exact .refl _ _
      · rw [e, h1]; exact ⟨rfl, rfl, rfl, Or.inr rfl, fun _ => Or.inr rfl⟩
  · have hr : c.isInRange p.ts = false := by
      rw [inside_iff hc.start_ hc.end_]; simpa using hin
    rw [kitInsert_upTo_outside K hc.ok hr]
    exact .refl _ _

theorem kit_snoc (K : Kit) (c : SChunk) (h : Inserts) (w : Labels × TimePoint) :
    c.insertAll (kitComp K) (h ++ [w]) = ((c.insertAll (kitComp K) h).insert (kitComp K) w.1 w.2).2 := by
  unfold Chunk.insertAll; rw [List.foldl_append]; rfl

/-- Both ends of an insert. -/
theorem kitInsert_reps (K : Kit) (lo hi : U64) {h : Inserts} {w : Labels × TimePoint} (hf : Fine (h ++ [w])) :
    ChunkRep (kitRefines K) lo hi (insideOnly lo hi h) ((newSled lo hi).insertAll (kitComp K) h) ∧
    ChunkRep (kitRefines K) lo hi (insideOnly lo hi (h ++ [w])) ((newSled lo hi).insertAll (kitComp K) (h ++ [w])) ∧
    ∀ n, CrashState ((newSled lo hi).insertAll (kitComp K) h) ((newSled lo hi).insertAll (kitComp K) (h ++ [w]))
      ((kitInsert K w).upTo n ((newSled lo hi).insertAll (kitComp K) h)) := by
  have hr := kit_rep K lo hi hf.prefix
  refine ⟨hr, kit_rep K lo hi hf, ?_⟩
  intro n
  rw [kit_snoc]
  exact kitInsert_crash K hr (hf.wf w (by simp)) w.2 n

/-! ### The query made of elementary reads -/

theorem kitContains_readOnly {β : Type} (K : Kit) {k : Res (List (List U64)) → Proc SChunk β} (hk : ∀ r, ReadOnly (k r)) (ls : Labels)
    (acc : List (List U64)) : ReadOnly (kitContains K k ls acc) := by
  induction ls generalizing acc with
  | nil => exact hk _
  | cons l ls ih =>
    rw [kitContains]
    apply readOnly_get
    intro r
    rcases r with (_ | t) | e | _
    · exact ih acc
    · exact ih (acc ++ [t])
    · exact hk _
    · exact hk _

theorem kitMeta_readOnly {β : Type} (K : Kit) {k : Res (List (U64 × Labels)) → Proc SChunk β} (hk : ∀ r, ReadOnly (k r)) (is : List U64)
    (acc : List (U64 × Labels)) : ReadOnly (kitMeta K k is acc) := by
  induction is generalizing acc with
  | nil => exact hk _
  | cons l ls ih =>
    rw [kitMeta]
    apply readOnly_get
    intro r
    rcases r with (_ | t) | e | _
    · exact ih acc
    · exact ih (acc ++ [t])
    · exact hk _
    · exact hk _

theorem kitRead_readOnly (K : Kit) (a b : U64) (l : List (U64 × Labels)) (acc : List Series) : ReadOnly (kitRead K a b l acc) := by
  induction l generalizing acc with
  | nil => exact .ret _
  | cons x l ih =>
    obtain ⟨i, ls⟩ := x
    rw [kitRead]
    apply readOnly_get
    intro r
    rcases r with d | e | _
    · exact ih _
    · exact .ret _
    · exact .ret _

theorem kitQuery_readOnly (K : Kit) (q : Labels) (a b : U64) : ReadOnly (kitQuery K q a b) := by
  unfold kitQuery
  apply readOnly_get
  intro st
  split
  · apply kitContains_readOnly
    intro r
    rcases r with ts | e | _
    · apply kitMeta_readOnly
      intro m
      rcases m with m | e | _
      · exact kitRead_readOnly _ _ _ _ _
      · exact .ret _
      · exact .ret _
    · exact .ret _
    · exact .ret _
  · exact .ret _

theorem kitContains_run {β : Type} (K : Kit) (k : Res (List (List U64)) → Proc SChunk β) (ls : Labels) (acc : List (List U64)) (c : SChunk) :
    (kitContains K k ls acc).run c =
      (k ((Res.mapM (K.getId c.store.idx) ls).bind fun ts => .ok (acc ++ ts.filterMap id))).run c := by
  induction ls generalizing acc with
  | nil => simp [kitContains, Res.mapM]
  | cons l ls ih =>
    simp only [kitContains, Proc.get, Proc.run, id, Res.mapM]
    rcases h : K.getId c.store.idx l with (_ | t) | e | _
    · simp only [Res.bind_ok]
      rw [ih]
      rcases Res.mapM (K.getId c.store.idx) ls with ts | e | _ <;> simp
    · simp only [Res.bind_ok]
      rw [ih]
      rcases Res.mapM (K.getId c.store.idx) ls with ts | e | _ <;> simp
    · simp
    · simp

theorem kitMeta_run {β : Type} (K : Kit) (k : Res (List (U64 × Labels)) → Proc SChunk β) (is : List U64) (acc : List (U64 × Labels)) (c : SChunk) :
    (kitMeta K k is acc).run c =
      (k ((Res.mapM (K.meta1 c.store.idx) is).bind fun ts => .ok (acc ++ ts.filterMap id))).run c := by
  induction is generalizing acc with
  | nil => simp [kitMeta, Res.mapM]
  | cons l ls ih =>
    simp only [kitMeta, Proc.get, Proc.run, id, Res.mapM]
    rcases h : K.meta1 c.store.idx l with (_ | t) | e | _
    · simp only [Res.bind_ok]
      rw [ih]
      rcases Res.mapM (K.meta1 c.store.idx) ls with ts | e | _ <;> simp
    · simp only [Res.bind_ok]
      rw [ih]
      rcases Res.mapM (K.meta1 c.store.idx) ls with ts | e | _ <;> simp
    · simp
    · simp

theorem kitRead_run (K : Kit) (a b : U64) (l : List (U64 × Labels)) (acc : List Series) (c : SChunk) :
    (kitRead K a b l acc).run c = ((readAll (kitComp K) c.store a b l).bind fun r => .ok (acc ++ r), c) := by
  induction l generalizing acc with
  | nil => simp [kitRead, readAll, Proc.run]
  | cons x l ih =>
    obtain ⟨i, ls⟩ := x
    have e : readAll (kitComp K) c.store a b ((i, ls) :: l) = (K.read c.store.ser i a b).bind fun d =>
        (readAll (kitComp K) c.store a b l).bind fun r => .ok (if d.length = 0 then r else ⟨i, ls, d⟩ :: r) := rfl
    rw [e]
    simp only [kitRead, Proc.get, Proc.run, id]
    rcases h : K.read c.store.ser i a b with d | e | _
    · simp only [Res.bind_ok]
      rw [ih]
      rcases readAll (kitComp K) c.store a b l with r | e | _
      · simp only [Res.bind_ok]
        split <;> simp
      · simp
      · simp
    · simp [Proc.run]
    · simp [Proc.run]

theorem mapM_filterMap_ids (kv : KV) (q : Labels) :
    (Res.mapM (fun l => match kv (encodeLabel l) with
      | some v => (decodeIds v).bind fun ids => .ok (some ids)
      | none => .ok none) q).bind (fun ts => .ok (ts.filterMap id)) =
    Res.mapM decodeIds (q.filterMap fun l => kv (encodeLabel l)) := by
  induction q with
  | nil => rfl
  | cons l q ih =>
    rw [List.filterMap_cons]
    rcases h : kv (encodeLabel l) with _ | v
    · simp only [Res.mapM, h, Res.bind_ok]
      rw [← ih]
      rcases Res.mapM (fun l => match kv (encodeLabel l) with
        | some v => (decodeIds v).bind fun ids => .ok (some ids)
        | none => .ok none) q with a | e | _ <;> simp
    · simp only [Res.mapM, h]
      rcases decodeIds v with ids | e | _
      · simp only [Res.bind_ok]
        rw [← ih]
        rcases Res.mapM (fun l => match kv (encodeLabel l) with
          | some v => (decodeIds v).bind fun ids => .ok (some ids)
          | none => .ok none) q with a | e | _ <;> simp
      · rfl
      · rfl

theorem kmapM_ok {α β : Type} (f : α → β) (l : List α) : Res.mapM (fun x => .ok (f x)) l = .ok (l.map f) := by
  induction l with
  | nil => rfl
  | cons x l ih => simp [Res.mapM, ih]

/-- The metadata query of the kit's indexer. -/
theorem kit_metadata (K : Kit) (s : SledStores) (q : Labels) : (kitComp K).metadata s q =
    ((Res.mapM (K.getId s.idx) q).bind fun ts => (Res.mapM (K.meta1 s.idx) (intersectAll (ts.filterMap id))).bind fun r => .ok (r.filterMap id)) := by
  obtain ⟨S, st, ix⟩ := K
  cases ix with
  | sled =>
    show sledMetadata s.idx q = _
    unfold sledMetadata sledContains
    show Res.bind (Res.bind (Res.mapM (sledGetId s.idx) q) _) _ = Res.bind (Res.mapM (sledGetId s.idx) q) _
    rcases Res.mapM (sledGetId s.idx) q with ts | e | _ <;> rfl
  | tikv =>
    show tikvMetadata [] s.idx q = _
    unfold tikvMetadata tikvContains
    simp only [List.nil_append]
    rw [← mapM_filterMap_ids]
    show _ = Res.bind (Res.mapM (fun l => match s.idx (encodeLabel l) with
      | some v => (decodeIds v).bind fun ids => .ok (some ids)
      | none => .ok none) q) _
    rcases Res.mapM (fun l => match s.idx (encodeLabel l) with
      | some v => (decodeIds v).bind fun ids => .ok (some ids)
      | none => .ok none) q with ts | e | _
    · simp only [Res.bind_ok]
      show _ = Res.bind (Res.mapM (fun i => .ok (tikvMeta1 [] s.idx i)) _) _
      rw [kmapM_ok, Res.bind_ok, List.filterMap_map]
      rfl
    · rfl
    · rfl

/-- The elementary reads of a query, run without interruption, are the query. -/
theorem kitQuery_run (K : Kit) (q : Labels) (a b : U64) (c : SChunk) (hp : c.poisoned = false) :
    (kitQuery K q a b).run c = (c.query (kitComp K) q a b, c) := by
  unfold kitQuery Chunk.query
  simp only [Proc.get, Proc.run, id, hp, Bool.false_eq_true, if_false]
  by_cases h : c.isWithRange a b = true
  · simp only [h, if_true]
    rw [kitContains_run, kit_metadata]
    rcases Res.mapM (K.getId c.store.idx) q with ts | e | _
    · simp only [Res.bind_ok, List.nil_append]
      rw [kitMeta_run]
      rcases Res.mapM (K.meta1 c.store.idx) (intersectAll (ts.filterMap id)) with ms | e | _
      · simp only [Res.bind_ok, List.nil_append]
        rw [kitRead_run]
        rcases readAll (kitComp K) c.store a b (ms.filterMap id) <;> simp
      · simp [Proc.run]
      · simp [Proc.run]
    · simp [Proc.run]
    · simp [Proc.run]
  · simp only [h, Bool.false_eq_true, if_false, Proc.run]

/-! ### Values of the elementary reads -/

theorem kitGetId_of (K : Kit) {c : Created} {kv : KV} {l : Label}
    (h : kv (encodeLabel l) = if idsWith c l = [] then none else some (K.codec.join (idsWith c l))) :
    K.getId kv l = .ok (optIds c l) := by
  obtain ⟨S, st, ix⟩ := K
  cases ix with
  | sled => exact sledGetId_of h
  | tikv =>
    show (match kv (encodeLabel l) with
      | some v => (decodeIds v).bind fun ids => .ok (some ids)
      | none => .ok none) = _
    rw [h]
    unfold optIds
    by_cases h0 : idsWith c l = []
    · simp [h0]
    · simp only [if_neg h0]
      show (decodeIds ((idsWith c l).flatMap toBE)).bind _ = _
      rw [tikv_decode_join]
      rfl

theorem kitMeta1_of (K : Kit) {c : Created} (hwf : ∀ s ∈ c, WFSet s.1) {kv : KV} {i : U64}
    (h : kv (encodeId i) = (c.find? fun s => decide (s.2 = i)).map fun s => encodeLabels s.1 false) :
    K.meta1 kv i = .ok ((c.find? fun s => decide (s.2 = i)).map fun s => (i, sortLabels s.1)) := by
  obtain ⟨S, st, ix⟩ := K
  cases ix with
  | sled => exact sledMeta1_of hwf h
  | tikv =>
    show Res.ok (tikvMeta1 [] kv i) = _
    unfold tikvMeta1
    rw [List.nil_append, h]
    rcases hf : c.find? (fun s => decide (s.2 = i)) with _ | s
    · rw [hf]; rfl
    · have hw := hwf s (List.mem_of_find?_eq_some hf)
      rw [hf, Option.map_some, Option.map_some]
      simp only []
      rw [decode_encodeLabels hw.nonempty hw.wf]

/-- The sets change the series store in their last step only. -/
inductive SerLast {α : Type} : Proc SChunk α → Prop
  | ret (a : α) : SerLast (.ret a)
  | last (u : SChunk → SChunk) (a : α) : SerLast (.act u fun _ => .ret a)
  | act {u : SChunk → SChunk} {k : SChunk → Proc SChunk α} : (∀ s, (u s).store.ser = s.store.ser) → (∀ s, SerLast (k s)) → SerLast (.act u k)

theorem SerLast.get {α β : Type} {f : SChunk → α} {k : α → Proc SChunk β} (h : ∀ a, SerLast (k a)) : SerLast (Proc.get f k) :=
  .act (fun _ => rfl) fun s => h (f s)

theorem kitCreateLabels_serLast (K : Kit) (i : U64) {k : Proc SChunk (Res Unit)} (hk : SerLast k) (ls : Labels) :
    SerLast (kitCreateLabels K i k ls) := by
  induction ls with
  | nil => exact hk
  | cons l ls ih =>
    rw [kitCreateLabels]
    exact .get fun v => .act (fun _ => rfl) fun _ => ih

theorem kitWrite_serLast (K : Kit) (i : U64) (p : TimePoint) (f : Res Unit → Res Unit) : SerLast (kitWrite K i p f) := by
  refine .get fun v => ?_
  split
  · exact .last _ _
  · exact .ret _
  · exact .last _ _

theorem kitInsert_serLast (K : Kit) (w : Labels × TimePoint) : SerLast (kitInsert K w) := by
  unfold kitInsert
  refine .get fun st => ?_
  split
  · exact .ret _
  · split
    · refine .get fun r => ?_
      split
      · exact .ret _
      · exact .last _ _
      · refine .act (fun _ => rfl) fun c => ?_
        rw [kitCreate_eq]
        have hs : ∀ i, SerLast (kitSets K w.1 i (kitWrite K i w.2 id)) := fun i =>
          .act (fun _ => rfl) fun _ => .act (fun _ => rfl) fun _ => kitCreateLabels_serLast K _ (kitWrite_serLast K _ _ _) _
        split
        · refine .get fun d => ?_
          split
          · exact .ret _
          · exact hs _
        · exact hs _
      · exact kitWrite_serLast K _ _ _
    · exact .ret _

end Verif
