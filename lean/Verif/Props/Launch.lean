import Verif.Spec.Launch
import Verif.Props.Server
/-! Property C86: starting the program. -/
namespace Verif

theorem has_iff (g : Option Str) (d v : Str) : Cli.has g d v ↔ g.getD d = v := by
  unfold Cli.has
  cases g <;> simp [eq_comm]

theorem tikv_name : ascii "tikv".toList = Backend.tikv.name := by decide
theorem sled_name : ascii "sled".toList = Backend.sled.name := by decide

theorem wantsTikv_iff (a : Cli) : a.wantsTikv ↔ (a.indexer.getD defaultBackend = Backend.tikv.name ∨ a.storage.getD defaultBackend = Backend.tikv.name) := by
  have n : defaultBackend ≠ Backend.tikv.name := by decide
  unfold Cli.wantsTikv
  rw [tikv_name]
  cases a.storage <;> cases a.indexer <;> simp [n, or_comm]

theorem numbers_iff (a : Cli) (secs workers port : Nat) : a.Numbers secs workers port ↔
    chunkSizeSecs (a.chunkSize.getD defaultChunkSize) = some secs ∧ serverConfig (a.workers.getD defaultWorkers) (a.port.getD defaultPort) = .ok port workers := by
  have e1 : ascii "12000".toList = defaultChunkSize := by decide
  have e2 : ascii "8".toList = defaultWorkers := by decide
  have e3 : ascii "9001".toList = defaultPort := by decide
  rw [C55_accepts_iff, chunkSizeSecs, parseUnsigned_iff]
  constructor
  · rintro ⟨⟨t, h1, h2⟩, ⟨t', h3, h4⟩, t'', h5, h6, h7⟩
    rw [has_iff, e1] at h1; rw [has_iff, e2] at h3; rw [has_iff, e3] at h5
    subst h1 h3 h5
    exact ⟨h2, h4, port, h6, h7, rfl⟩
  · rintro ⟨h1, h2, n, h3, h4, h5⟩
    have : port = n := by exact_mod_cast h5
    subst this
    exact ⟨⟨_, (has_iff _ _ _).mpr (by rw [e1]), h1⟩, ⟨_, (has_iff _ _ _).mpr (by rw [e2]), h2⟩, ⟨_, (has_iff _ _ _).mpr (by rw [e3]), h3, h4⟩⟩

theorem numbers_none (a : Cli) (h : ¬ ∃ s k p, a.Numbers s k p) : chunkSizeSecs (a.chunkSize.getD defaultChunkSize) = none ∨
    ∀ p k, serverConfig (a.workers.getD defaultWorkers) (a.port.getD defaultPort) ≠ .ok p k := by
  rcases hs : chunkSizeSecs (a.chunkSize.getD defaultChunkSize) with _ | secs
  · exact Or.inl rfl
  · right
    intro p k hp
    obtain ⟨-, n, -, -, hn⟩ := (C55_accepts_iff _ _ _ _).mp hp
    subst hn
    exact h ⟨secs, k, n, (numbers_iff _ _ _ _).mpr ⟨hs, hp⟩⟩

theorem configOk_iff (w : World) (a : Cli) : a.ConfigOk w ↔
    ¬ (decide (a.indexer.getD defaultBackend = Backend.tikv.name ∨ a.storage.getD defaultBackend = Backend.tikv.name) = true ∧ a.tikvConfig.map w.files = some none) := by
  unfold Cli.ConfigOk
  rw [wantsTikv_iff, decide_eq_true_eq]
  constructor
  · rintro h ⟨h1, h2⟩
    rw [Option.map_eq_some_iff] at h2
    obtain ⟨f, h3, h4⟩ := h2
    exact h h1 f h3 h4
  · intro h h1 f h2 h3
    exact h ⟨h1, by rw [h2, Option.map_some, h3]⟩

theorem openCheck_iff (m : MetaFile) (s i : Str) : (openCheck m s i).1 = .ok () ↔ m = .unreadable ∨ m = .text (some { indexerType := s, storageType := i }) := by
  unfold openCheck readOrCreateMeta
  rcases m with _ | (_ | ⟨x, y⟩)
  · simp
  · simp
  · simp only
    split
    · rename_i h
      simp only [reduceCtorEq, false_or, MetaFile.text.injEq, Option.some.injEq, DbMeta.mk.injEq, false_iff]
      rintro ⟨rfl, rfl⟩
      simp at h
    · rename_i h
      simp only [not_or, not_not] at h
      simp [h.1, h.2]

theorem startWith_runs (w : World) (t : Str) (n : Nat) (h : chunkSizeSecs t = some n) (lo hi : U64) : startWith w.checked t w.now = .runs lo hi ↔
    lo = w.now ∧ hi.toNat = (w.now.toNat + n * 1000) % 2 ^ 64 ∧ (w.checked = true → w.now.toNat + n * 1000 % 2 ^ 64 < 2 ^ 64) := by
  obtain ⟨e1, e2⟩ := C69_exact w.checked t n ((parseUnsigned_iff _ _ _).mp h) w.now
  by_cases hc : w.checked = true ∧ 2 ^ 64 ≤ w.now.toNat + n * 1000 % 2 ^ 64
  · rw [e1 hc]
    simp only [reduceCtorEq, false_iff]
    rintro ⟨-, -, h3⟩
    have := h3 hc.1
    omega
  · obtain ⟨e, h1, h2⟩ := e2 hc
    rw [h1]
    simp only [Start.runs.injEq]
    constructor
    · rintro ⟨rfl, rfl⟩
      exact ⟨rfl, h2, fun h => by by_contra hn; exact hc ⟨h, by omega⟩⟩
    · rintro ⟨rfl, h4, -⟩
      exact ⟨rfl, BitVec.eq_of_toNat_eq (by rw [h2, h4])⟩

/-- C86: the program begins to serve exactly when the options can be met, and then the server is the one they ask for: the components named (not
exchanged), the paths, port and number of workers given or their defaults, a first chunk of the given length; TiKV data goes to a cluster exactly if
a configuration file says so. -/
theorem C86_serving_iff (w : World) (a : Cli) (r : Running) : (launch w a).out = .serving r ↔
    Asked w a r ∧ DirFits w.metaFile r.st r.ix ∧ w.existing = true ∧ w.writable = true ∧ (r.conn = some .cluster → w.reach = true) ∧ w.free r.port = true := by
  have er : ascii "/read".toList = defaultRead := by decide
  have ew : ascii "/write".toList = defaultWrite := by decide
  have hname : ∀ b b' : Backend, b.name = b'.name → b = b' := by intro b b'; cases b <;> cases b' <;> simp [Backend.name]
  -- the right side, in terms of the model
  have hasked : Asked w a r ↔ (mainChoice (a.storage.getD defaultBackend) (a.indexer.getD defaultBackend) = some (r.st, r.ix) ∧ a.readPath.getD defaultRead = r.read ∧
      a.writePath.getD defaultWrite = r.write ∧ (∃ secs, chunkSizeSecs (a.chunkSize.getD defaultChunkSize) = some secs ∧
        serverConfig (a.workers.getD defaultWorkers) (a.port.getD defaultPort) = .ok r.port r.workers ∧
        startWith w.checked (a.chunkSize.getD defaultChunkSize) w.now = .runs r.lo r.hi) ∧ a.ConfigOk w ∧
      r.conn = mainConn ((a.tikvConfig.map w.files).bind id) (a.storage.getD defaultBackend) (a.indexer.getD defaultBackend)) := by
    have hconn : a.ConfigOk w → ((r.conn = some .cluster ↔ a.wantsTikv ∧ ∃ f, a.tikvConfig = some f ∧ w.files f = some false) ∧
        (r.conn = some .dryRun ↔ a.wantsTikv ∧ ¬ ∃ f, a.tikvConfig = some f ∧ w.files f = some false) ↔
        r.conn = mainConn ((a.tikvConfig.map w.files).bind id) (a.storage.getD defaultBackend) (a.indexer.getD defaultBackend)) := by
      intro hok
      unfold mainConn
      by_cases hw : a.wantsTikv
      · have hw' := (wantsTikv_iff a).mp hw
        have hok := hok hw
        rw [if_pos hw']
        simp only [hw, true_and]
        rcases hf : a.tikvConfig with _ | f
        · simp only [Option.map_none, Option.bind_none, reduceCtorEq, false_and, exists_false, not_false_eq_true, iff_true, iff_false]
          exact ⟨fun h => h.2, fun h => ⟨by rw [h]; simp, h⟩⟩
        · rcases hd : w.files f with _ | d
          · exact absurd hd (hok f hf)
          · simp only [Option.map_some, Option.bind_some, id, Option.some.injEq, hd, exists_eq_left']
            cases d <;> simp
            · intro h; simp [h]
            · intro h; simp [h]
      · have hw' : ¬ _ := fun h => hw ((wantsTikv_iff a).mpr h)
        rw [if_neg hw']
        simp only [hw, false_and, iff_false]
        rcases r.conn with _ | (_ | _) <;> simp
    constructor
    · rintro ⟨h1, h2, h3, h4, ⟨secs, port, h5, h6, h7⟩, h8, h9, h10⟩
      rw [has_iff, sled_name] at h1 h2
      rw [has_iff, er] at h3; rw [has_iff, ew] at h4
      obtain ⟨h11, h12⟩ := (numbers_iff _ _ _ _).mp h5
      exact ⟨(C68_dispatch _ _ _ _).mpr ⟨h1, h2⟩, h3, h4, ⟨secs, h11, by rw [h12, h6], (startWith_runs _ _ _ h11 _ _).mpr h7⟩, h10, (hconn h10).mp ⟨h8, h9⟩⟩
    · rintro ⟨h1, h2, h3, ⟨secs, h4, h5, h6⟩, h7, h8⟩
      obtain ⟨h9, h10⟩ := (C68_dispatch _ _ _ _).mp h1
      obtain ⟨-, n, -, -, hn⟩ := (C55_accepts_iff _ _ _ _).mp h5
      obtain ⟨h11, h12⟩ := (hconn h7).mpr h8
      exact ⟨(has_iff _ _ _).mpr (by rw [sled_name]; exact h9), (has_iff _ _ _).mpr (by rw [sled_name]; exact h10), (has_iff _ _ _).mpr (by rw [er]; exact h2),
        (has_iff _ _ _).mpr (by rw [ew]; exact h3), ⟨secs, n, (numbers_iff _ _ _ _).mpr ⟨h4, by rw [h5, hn]⟩, hn, (startWith_runs _ _ _ h4 _ _).mp h6⟩, h11, h12, h7⟩
  rw [hasked, DirFits, ← openCheck_iff]
  unfold launch
  simp only []
  rcases hs : chunkSizeSecs (a.chunkSize.getD defaultChunkSize) with _ | secs
  · simp
  · simp only [Option.some.injEq, exists_eq_left']
    rcases hp : serverConfig (a.workers.getD defaultWorkers) (a.port.getD defaultPort) with ⟨port, workers⟩ | _ | _
    · simp only [OptRes.ok.injEq]
      by_cases hc : a.ConfigOk w
      · rw [if_neg ((configOk_iff w a).mp hc)]
        rcases hm : mainChoice (a.storage.getD defaultBackend) (a.indexer.getD defaultBackend) with _ | ⟨st, ix⟩
        · simp
        · simp only [hc, true_and, Option.some.injEq, Prod.mk.injEq]
          generalize mainConn ((a.tikvConfig.map w.files).bind id) (a.storage.getD defaultBackend) (a.indexer.getD defaultBackend) = conn
          unfold open_
          rcases ho : openCheck w.metaFile st.storageType ix.indexerType with ⟨u | e | _, m⟩
          · simp only []
            by_cases he : w.existing = true
            · rw [if_pos he]
              rcases hw : startWith w.checked (a.chunkSize.getD defaultChunkSize) w.now with _ | _ | ⟨lo, hi⟩
              · simp
              · simp
              · simp only []
                by_cases hwr : w.writable = true
                · rw [if_pos hwr]
                  by_cases hcl : conn = some .cluster ∧ w.reach = false
                  · rw [if_pos hcl]
                    simp only [reduceCtorEq, false_iff]
                    rintro ⟨⟨-, -, -, -, h5⟩, -, -, -, h6, -⟩
                    rw [h6 (h5.trans hcl.1)] at hcl
                    simp at hcl
                  · rw [if_neg hcl]
                    by_cases hf : w.free port = true
                    · rw [if_pos hf]
                      simp only [Fate.serving.injEq]
                      constructor
                      · rintro rfl
                        refine ⟨⟨⟨rfl, rfl⟩, rfl, rfl, ⟨⟨rfl, rfl⟩, rfl⟩, rfl⟩, by rw [ho], he, hwr, fun h => ?_, hf⟩
                        by_contra hr
                        exact hcl ⟨h, by simpa using hr⟩
                      · rintro ⟨⟨⟨h1, h2⟩, h3, h4, ⟨⟨h5, h6⟩, h7⟩, h8⟩, -⟩
                        obtain ⟨rst, rix, rconn, rport, rread, rwrite, rworkers, rlo, rhi⟩ := r
                        simp only [Start.runs.injEq] at *
                        simp [h1, h2, h3, h4, h5, h6, h7.1, h7.2, h8]
                    · rw [if_neg hf]
                      simp only [reduceCtorEq, false_iff]
                      rintro ⟨⟨-, -, -, ⟨⟨h5, -⟩, -⟩, -⟩, -, -, -, -, h6⟩
                      rw [h5] at hf; exact hf h6
                · rw [if_neg hwr]
                  simp [hwr]
            · rw [if_neg he]
              simp [he]
          · simp only [reduceCtorEq, false_iff]
            rintro ⟨⟨⟨h1, h2⟩, -⟩, h3, -⟩
            rw [← h1, ← h2, ho] at h3
            cases h3
          · simp only [reduceCtorEq, false_iff]
            rintro ⟨⟨⟨h1, h2⟩, -⟩, h3, -⟩
            rw [← h1, ← h2, ho] at h3
            cases h3
      · rw [if_pos (by by_contra h; exact hc ((configOk_iff w a).mpr h))]
        simp [hc]
    · simp
    · simp


/-- Every way a launch can go, in terms of the model's steps. -/
theorem launch_cases (w : World) (a : Cli) :
    (launch w a = ⟨.ended 101, w.metaFile, false⟩ ∧ ¬ ((∃ s k p, a.Numbers s k p) ∧ a.ConfigOk w)) ∨
    ((∃ s k p, a.Numbers s k p) ∧ a.ConfigOk w ∧ mainChoice (a.storage.getD defaultBackend) (a.indexer.getD defaultBackend) = none ∧
      launch w a = ⟨.ended 1, w.metaFile, false⟩) ∨
    ((∃ s k p, a.Numbers s k p) ∧ a.ConfigOk w ∧ ∃ st ix conn port workers, mainChoice (a.storage.getD defaultBackend) (a.indexer.getD defaultBackend) = some (st, ix) ∧
      launch w a = open_ w st ix conn port workers (a.readPath.getD defaultRead) (a.writePath.getD defaultWrite) (a.chunkSize.getD defaultChunkSize)) := by
  by_cases hn : ∃ s k p, a.Numbers s k p
  · have hn' := hn
    obtain ⟨s, k, p, h⟩ := hn
    obtain ⟨h1, h2⟩ := (numbers_iff _ _ _ _).mp h
    unfold launch
    simp only [h1, h2]
    by_cases hc : a.ConfigOk w
    · rw [if_neg ((configOk_iff w a).mp hc)]
      right
      rcases hm : mainChoice (a.storage.getD defaultBackend) (a.indexer.getD defaultBackend) with _ | ⟨st, ix⟩
      · exact Or.inl ⟨hn', hc, rfl, rfl⟩
      · exact Or.inr ⟨hn', hc, st, ix, _, _, _, rfl, rfl⟩
    · rw [if_pos (by by_contra h; exact hc ((configOk_iff w a).mpr h))]
      exact Or.inl ⟨rfl, fun h => hc h.2⟩
  · left
    refine ⟨?_, fun h => hn h.1⟩
    unfold launch
    rcases numbers_none a hn with h | h
    · simp only [h]
    · rcases hs : chunkSizeSecs (a.chunkSize.getD defaultChunkSize) with _ | secs
      · simp only [hs]
      · simp only [hs]
        rcases hp : serverConfig (a.workers.getD defaultWorkers) (a.port.getD defaultPort) with ⟨port, workers⟩ | _ | _
        · exact absurd hp (h _ _)
        · simp only []
        · simp only []

theorem open_ended (w : World) (st ix : Backend) (conn : Option Conn) (port : Int) (k : Nat) (rd wr size : Str) (c : Nat)
    (h : (open_ w st ix conn port k rd wr size).out = .ended c) : c = 101 := by
  unfold open_ at h
  repeat' split at h
  all_goals simp_all

theorem open_meta (w : World) (st ix : Backend) (conn : Option Conn) (port : Int) (k : Nat) (rd wr size : Str) :
    (open_ w st ix conn port k rd wr size).metaFile = (openCheck w.metaFile st.storageType ix.indexerType).2 := by
  unfold open_
  rcases openCheck w.metaFile st.storageType ix.indexerType with ⟨u | e | _, m⟩ <;> simp only []
  repeat' split
  all_goals rfl

theorem openCheck_meta (m : MetaFile) (s i : Str) : (openCheck m s i).2 = m ∨ m = .unreadable ∧ (openCheck m s i).2 = .text (some { indexerType := s, storageType := i }) := by
  unfold openCheck readOrCreateMeta
  rcases m with _ | (_ | ⟨x, y⟩)
  · simp
  · simp
  · simp only
    split <;> simp

theorem choice_none (s i : Str) : mainChoice s i = none ↔ ¬ ((s = ascii "sled".toList ∨ s = ascii "tikv".toList) ∧ (i = ascii "sled".toList ∨ i = ascii "tikv".toList)) := by
  rw [sled_name, tikv_name]
  constructor
  · rintro h ⟨hs, hi⟩
    have : ∃ st ix : Backend, st.name = s ∧ ix.name = i := by
      rcases hs with rfl | rfl <;> rcases hi with rfl | rfl
      · exact ⟨.sled, .sled, rfl, rfl⟩
      · exact ⟨.sled, .tikv, rfl, rfl⟩
      · exact ⟨.tikv, .sled, rfl, rfl⟩
      · exact ⟨.tikv, .tikv, rfl, rfl⟩
    obtain ⟨st, ix, h1, h2⟩ := this
    rw [(C68_dispatch _ _ _ _).mpr ⟨h1.symm, h2.symm⟩] at h
    cases h
  · intro h
    rcases hm : mainChoice s i with _ | ⟨st, ix⟩
    · rfl
    · obtain ⟨rfl, rfl⟩ := (C68_dispatch _ _ _ _).mp hm
      exact absurd ⟨by cases st <;> simp, by cases ix <;> simp⟩ h

/-- C86: a launch that does not serve ends with exit code 101 (a panic) or 1; code 1 tells exactly that the numbers and the configuration file are
fine but a component's name is not known. -/
theorem C86_codes (w : World) (a : Cli) : (∀ c, (launch w a).out = .ended c → c = 101 ∨ c = 1) ∧
    ((launch w a).out = .ended 1 ↔ (∃ s k p, a.Numbers s k p) ∧ a.ConfigOk w ∧ a.UnknownName) := by
  have hu : a.UnknownName ↔ mainChoice (a.storage.getD defaultBackend) (a.indexer.getD defaultBackend) = none := by
    have : defaultBackend = ascii "sled".toList := by decide
    rw [choice_none, this]
    unfold Cli.UnknownName
    rcases a.storage with _ | x <;> rcases a.indexer with _ | y <;> simp <;> tauto
  rw [hu]
  rcases launch_cases w a with ⟨h, hn⟩ | ⟨hn, hc, hm, h⟩ | ⟨hn, hc, st, ix, conn, port, k, hm, h⟩
  · rw [h]
    exact ⟨fun c hc => by simp at hc; omega, ⟨fun hx => by simp at hx, fun hx => absurd ⟨hx.1, hx.2.1⟩ hn⟩⟩
  · rw [h]
    exact ⟨fun c hc => by simp at hc; omega, by simp [hn, hc, hm]⟩
  · rw [h, hm]
    refine ⟨fun c hc => Or.inl (open_ended _ _ _ _ _ _ _ _ _ c hc), by
      simp only [reduceCtorEq, and_false, iff_false]
      intro hx
      have := open_ended _ _ _ _ _ _ _ _ _ _ hx
      omega⟩

/-- C86: a launch whose options are wrong (a number, a name, a configuration file) touches nothing. -/
theorem C86_untouched (w : World) (a : Cli) (h : (¬ ∃ s k p, a.Numbers s k p) ∨ ¬ a.ConfigOk w ∨ a.UnknownName) :
    (launch w a).metaFile = w.metaFile ∧ (launch w a).made = false ∧ ∀ r, (launch w a).out ≠ .serving r := by
  rcases launch_cases w a with ⟨h1, -⟩ | ⟨-, -, -, h1⟩ | ⟨hn, hc, st, ix, conn, port, k, hm, h1⟩
  · rw [h1]; simp
  · rw [h1]; simp
  · exfalso
    rcases h with h | h | h
    · exact h hn
    · exact h hc
    · have := (C86_codes w a).2.mpr ⟨hn, hc, h⟩
      rw [h1] at this
      have := open_ended _ _ _ _ _ _ _ _ _ _ this
      omega

/-- C86: a launch never changes the record of a directory that has one, and a directory is made only after it was accepted. -/
theorem C86_record (w : World) (a : Cli) : ((launch w a).metaFile = w.metaFile ∨ w.metaFile = .unreadable) ∧
    ((launch w a).made = true → ∃ st ix, Cli.has a.storage (ascii "sled".toList) st.name ∧ Cli.has a.indexer (ascii "sled".toList) ix.name ∧ DirFits w.metaFile st ix ∧
      DirFits (launch w a).metaFile st ix) := by
  rcases launch_cases w a with ⟨h1, -⟩ | ⟨-, -, -, h1⟩ | ⟨hn, hc, st, ix, conn, port, k, hm, h1⟩
  · rw [h1]; simp
  · rw [h1]; simp
  · rw [h1]
    obtain ⟨h9, h10⟩ := (C68_dispatch _ _ _ _).mp hm
    refine ⟨?_, fun hmade => ⟨st, ix, (has_iff _ _ _).mpr (by rw [sled_name]; exact h9), (has_iff _ _ _).mpr (by rw [sled_name]; exact h10), ?_⟩⟩
    · rw [open_meta]
      rcases openCheck_meta w.metaFile st.storageType ix.indexerType with h | h
      · exact Or.inl h
      · exact Or.inr h.1
    · have hok : (openCheck w.metaFile st.storageType ix.indexerType).1 = .ok () := by
        unfold open_ at hmade
        rcases ho : openCheck w.metaFile st.storageType ix.indexerType with ⟨u | e | _, m⟩
        · rfl
        · rw [ho] at hmade; simp at hmade
        · rw [ho] at hmade; simp at hmade
      have hfit := (openCheck_iff _ _ _).mp hok
      refine ⟨hfit, ?_⟩
      rw [open_meta]
      rcases openCheck_meta w.metaFile st.storageType ix.indexerType with h | h
      · rw [h]; exact hfit
      · rw [h.2]; exact Or.inr rfl

/-- C86: a directory is bound to the components it was first used with: after a launch that served, or only made its chunk's directory, a launch that
serves from there has the same components, whatever its options and the rest of the world. -/
theorem C86_bound (w w' : World) (a a' : Cli) (r' : Running) (h : (launch w a).made = true) (hm : w'.metaFile = (launch w a).metaFile)
    (h' : (launch w' a').out = .serving r') :
    Cli.has a.storage (ascii "sled".toList) r'.st.name ∧ Cli.has a.indexer (ascii "sled".toList) r'.ix.name ∧ (launch w' a').metaFile = (launch w a).metaFile := by
  obtain ⟨-, hr⟩ := C86_record w a
  obtain ⟨st, ix, h1, h2, h3, -⟩ := hr h
  have hne : (launch w a).metaFile = .text (some { indexerType := st.storageType, storageType := ix.indexerType }) := by
    rcases launch_cases w a with ⟨e, -⟩ | ⟨-, -, -, e⟩ | ⟨hn, hc, st', ix', conn, port, k, hm', e⟩
    · rw [e] at h; simp at h
    · rw [e] at h; simp at h
    · obtain ⟨h9, h10⟩ := (C68_dispatch _ _ _ _).mp hm'
      rw [has_iff, sled_name] at h1 h2
      have e1 : st' = st := by
        have : st'.name = st.name := h9.symm.trans h1
        revert this; cases st <;> cases st' <;> simp [Backend.name]
      have e2 : ix' = ix := by
        have : ix'.name = ix.name := h10.symm.trans h2
        revert this; cases ix <;> cases ix' <;> simp [Backend.name]
      subst e1 e2
      rw [e, open_meta]
      rcases h3 with h3 | h3
      · rw [h3]; rfl
      · rw [h3]; simp [openCheck, readOrCreateMeta]
  obtain ⟨-, hfit, -⟩ := (C86_serving_iff w' a' r').mp h'
  unfold DirFits at hfit
  rw [hm, hne] at hfit
  simp only [reduceCtorEq, MetaFile.text.injEq, Option.some.injEq, DbMeta.mk.injEq, false_or] at hfit
  have e1 : st = r'.st := by
    obtain ⟨e, -⟩ := hfit
    revert e; cases st <;> cases r'.st <;> simp [Backend.storageType]
  have e2 : ix = r'.ix := by
    obtain ⟨-, e⟩ := hfit
    revert e; cases ix <;> cases r'.ix <;> simp [Backend.indexerType]
  subst e1 e2
  refine ⟨h1, h2, ?_⟩
  rcases (C86_record w' a').1 with h | h
  · rw [h, hm]
  · rw [hm, hne] at h; cases h

/-- C86: without any option, in a new directory, the program serves from sled on port 9001, reads at /read, writes at /write, with eight workers and a
first chunk of 12000 seconds. -/
theorem C86_defaults (w : World) (hm : w.metaFile = .unreadable) (he : w.existing = true) (hw : w.writable = true) (hf : w.free 9001 = true)
    (hn : w.now.toNat + 12000000 < 2 ^ 64) :
    (launch w ⟨none, none, none, none, none, none, none, none⟩).out =
      .serving ⟨.sled, .sled, none, 9001, ascii "/read".toList, ascii "/write".toList, 8, w.now, w.now + 12000000⟩ := by
  rw [C86_serving_iff]
  refine ⟨⟨Or.inr ⟨rfl, rfl⟩, Or.inr ⟨rfl, rfl⟩, Or.inr ⟨rfl, rfl⟩, Or.inr ⟨rfl, rfl⟩, ⟨12000, 9001, ?_, rfl, rfl, ?_, fun _ => ?_⟩, ?_, ?_, ?_⟩, Or.inl hm, he, hw, ?_, hf⟩
  · rw [numbers_iff]; 
    have e : serverConfig defaultWorkers defaultPort = .ok 9001 8 := by decide +kernel
    exact ⟨by decide +kernel, e⟩
  · rw [BitVec.toNat_add]
    have : BitVec.toNat (12000000 : U64) = 12000000 := by decide
    rw [this]
  · omega
  · simp [Cli.wantsTikv]
  · simp [Cli.wantsTikv]
  · intro h; simp [Cli.wantsTikv] at h
  · simp

/-- C86 is violated in one respect: equal paths for reading and writing are accepted, and then no request ever changes the database. -/
theorem C86_violated_paths (w : World) (a : Cli) (r : Running) (h : (launch w a).out = .serving r) (p : Str) (hr : a.readPath = some p) (hw : a.writePath = some p)
    {δ : Type} (D : DbApi δ) (F : Formats) (db : δ) (reqs : List Request) : (serve D F ⟨r.read, r.write⟩ db reqs).2 = db := by
  obtain ⟨ha, -⟩ := (C86_serving_iff w a r).mp h
  have h1 : r.read = p := by have := ha.read; simp [Cli.has, hr] at this; exact this.symm
  have h2 : r.write = p := by have := ha.write; simp [Cli.has, hw] at this; exact this.symm
  rw [h1, h2]
  have hone : ∀ q, (process D F ⟨p, p⟩ db q).2 = db := by
    intro q
    unfold process
    repeat' split
    all_goals first | rfl | simp_all
  induction reqs with
  | nil => rfl
  | cons q qs ih =>
    rw [serve]
    have := hone q
    rcases he : process D F ⟨p, p⟩ db q with ⟨x, db'⟩
    rw [he] at this
    simp only at this
    subst this
    cases x <;> simp [ih]

/-- C86, the part that holds: with different paths (such as the defaults), a write request sent to the path of writing does what `write` does, and
other URLs do nothing. -/
theorem C86_paths_partial (w : World) (a : Cli) (r : Running) (h : (launch w a).out = .serving r)
    (hne : ∀ p q, Cli.has a.readPath (ascii "/read".toList) p → Cli.has a.writePath (ascii "/write".toList) q → p ≠ q)
    {δ : Type} (D : DbApi δ) (F : Formats) (db : δ) (req : Request) :
    (∀ body content, Cli.has a.writePath (ascii "/write".toList) req.url → req.body = some body → F.decompress body = some content →
      (process D F ⟨r.read, r.write⟩ db req).2 = (serverWrite D db (F.parseWrite content)).2) ∧
    (¬ Cli.has a.writePath (ascii "/write".toList) req.url → (process D F ⟨r.read, r.write⟩ db req).2 = db) := by
  obtain ⟨ha, -⟩ := (C86_serving_iff w a r).mp h
  have hrw := hne _ _ ha.read ha.write
  have h1 := ha.write
  rw [has_iff] at h1
  refine ⟨fun body content hu hb hd => ?_, fun hu => ?_⟩
  · rw [has_iff] at hu
    have hu : req.url = r.write := hu.symm.trans h1
    unfold process
    rw [hb]
    simp only [hd]
    rw [if_neg (by rw [hu]; exact fun e => hrw e.symm), if_pos hu]
    rcases serverWrite D db (F.parseWrite content) with ⟨x | x | _, db'⟩ <;> rfl
  · rw [has_iff, h1] at hu
    unfold process
    repeat' split
    all_goals first | rfl | simp_all

/-! ### The hypotheses can be met -/

/-- A fresh directory, a cluster that answers, one configuration file "c" for it and one, "d", for a dry run. -/
def exWorld : World :=
  { files := fun f => if f = ascii "c".toList then some false else if f = ascii "d".toList then some true else none
    metaFile := .unreadable, existing := true, writable := true, reach := true, free := fun _ => true, now := 1000, checked := true }

/-- `--storage tikv --chunk_size 60 --port 2000 --tikv_config c`. -/
def exCli : Cli := ⟨some (ascii "tikv".toList), none, some (ascii "60".toList), some (ascii "2000".toList), none, none, some (ascii "3".toList), some (ascii "c".toList)⟩

-- C86_serving_iff
example : launch exWorld exCli = ⟨.serving ⟨.tikv, .sled, some .cluster, 2000, ascii "/read".toList, ascii "/write".toList, 3, 1000, 61000⟩,
    .text (some { indexerType := Backend.tikv.storageType, storageType := Backend.sled.indexerType }), true⟩ := by decide +kernel
example : (launch exWorld { exCli with tikvConfig := some (ascii "d".toList) }).out =
    .serving ⟨.tikv, .sled, some .dryRun, 2000, ascii "/read".toList, ascii "/write".toList, 3, 1000, 61000⟩ := by decide +kernel
-- C86_codes: both codes
example : (launch exWorld { exCli with indexer := some (ascii "Sled".toList) }).out = .ended 1 := by decide +kernel
example : (launch exWorld { exCli with port := some (ascii "1023".toList) }).out = .ended 101 := by decide +kernel
-- C86_untouched
example : ¬ { exCli with tikvConfig := some (ascii "e".toList) }.ConfigOk exWorld := fun h =>
  h (Or.inl rfl) (ascii "e".toList) rfl (by decide +kernel)
example : { exCli with indexer := some (ascii "Sled".toList) }.UnknownName := ⟨_, Or.inr rfl, by decide, by decide⟩
-- C86_record, C86_bound: a second launch with the same components serves, with others it ends
example : (launch exWorld exCli).made = true ∧ (launch { exWorld with metaFile := (launch exWorld exCli).metaFile, now := 5000 } exCli).out =
    .serving ⟨.tikv, .sled, some .cluster, 2000, ascii "/read".toList, ascii "/write".toList, 3, 5000, 65000⟩ := by decide +kernel
example : (launch { exWorld with metaFile := (launch exWorld exCli).metaFile } { exCli with indexer := some (ascii "tikv".toList) }).out = .ended 101 := by decide +kernel
-- C86_defaults
example : (launch exWorld ⟨none, none, none, none, none, none, none, none⟩).out =
    .serving ⟨.sled, .sled, none, 9001, ascii "/read".toList, ascii "/write".toList, 8, 1000, 12001000⟩ :=
  C86_defaults exWorld rfl rfl rfl rfl (by decide)
-- C86_violated_paths: equal paths serve
example : ∃ r, (launch exWorld { exCli with readPath := some (ascii "/w".toList), writePath := some (ascii "/w".toList) }).out = .serving r :=
  ⟨⟨.tikv, .sled, some .cluster, 2000, ascii "/w".toList, ascii "/w".toList, 3, 1000, 61000⟩, by decide +kernel⟩
-- C86_paths_partial: the defaults differ
example : ∀ p q, Cli.has exCli.readPath (ascii "/read".toList) p → Cli.has exCli.writePath (ascii "/write".toList) q → p ≠ q := by
  intro p q h1 h2
  rw [has_iff] at h1 h2
  subst h1 h2
  decide +kernel

end Verif
