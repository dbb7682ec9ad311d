import Verif.Lemmas.ServerConcOn
/-! What a server has shown once it shows again. -/
namespace Verif
open List

/-- A sample in an answer is held by the sequential database that the query was made on. -/
theorem shown_held {sn : Snappy} {rt : PbRt} {lo hi : U64} {ticks : List (U64 × U64)} {calls : List Call} {c : SrvConf} {L : List DbOp} {N : List Nat}
    (hf : FineCalls rt calls) (D : OneOrder sn rt [] lo hi ticks calls c L N) {j : Nat} {qs : List PQuery} (hj : calls[j]? = some (.read qs)) {body : Str}
    (hres : c.sent[j]? = some (some ⟨200, body⟩))
    (hqs : ∀ q ∈ qs, (∀ y ∈ q.matchers, WFLabel ⟨y.name, y.value⟩) ∧ (asU64 q.start_).toNat ≤ (asU64 q.end_).toNat)
    {out : Str} (ho : sn.decompress body = some out) (hl : out.length < 2 ^ 32) {rs : List (List PSeries)} (hrs : IsResponse rt.utf8 rs out)
    {k : Nat} {r : List PSeries} (hr : rs[k]? = some r) {y : PSeries} (hy : y ∈ r) {z : Sample} (hz : z ∈ y.samples) :
    ∃ p op w, p ++ [op] <+: L ∧ op.isSwap = false ∧ (p.filter fun x => !x.isSwap).length < (N.take (j + 1)).sum ∧
      (∃ d ∈ ((SeqDb.fresh lo hi).run p).all, w ∈ d.h) ∧ y.labels = sortLabels w.1 ∧ z = asReported w.2 := by
  obtain ⟨-, -, d0, d3, -, -, d4⟩ := D
  obtain ⟨hj3, -⟩ := List.getElem?_eq_some_iff.mp hres
  obtain ⟨ps, f1, f2, f3⟩ := d4 j N[j] _ _ hj (List.getElem?_eq_getElem (by omega)) hres
  obtain ⟨body', out', g1, g2, rs', g3, g4, g5, g6⟩ := f3 hqs
  simp only [Option.some.injEq, Response.mk.injEq, true_and] at g1
  subst g1
  rw [ho] at g2
  obtain rfl := Option.some.inj g2
  obtain rfl := (g6 hl rs).mp hrs
  rw [List.length_map] at g3
  have hk' : k < rs.length := (List.getElem?_eq_some_iff.mp hr).1
  have hk : k < qs.length := by omega
  have hkp : k < ps.length := by omega
  obtain ⟨es, u1, u2⟩ := g5 k ((SeqDb.fresh lo hi).run ps[k]) qs[k] r (by rw [List.getElem?_map, List.getElem?_eq_getElem hkp]; rfl) (List.getElem?_eq_getElem hk) hr
  obtain ⟨r1, op', r2, r3⟩ := f2 k ps[k] (List.getElem?_eq_getElem hkp)
  have hNj : N.take (j + 1) = N.take j ++ [N[j]] := List.take_succ_eq_append_getElem (by omega)
  have hfrom : ∀ d ∈ ((SeqDb.fresh lo hi).run ps[k]).all, ∀ w ∈ d.h, WFSet w.1 ∧ inside d.lo d.hi w.2 = true := by
    intro d hd w hw
    obtain ⟨pts, y1, y2, y3⟩ := SeqDb.run_from hd hw
    exact ⟨hf.client.wf _ _ (d0.subset (List.mem_filter.mpr ⟨((List.prefix_append _ _).trans r3).subset y1, rfl⟩)), y3⟩
  have key : ∀ ds : List Desc, (∀ d ∈ ds, d ∈ ((SeqDb.fresh lo hi).run ps[k]).all) → IsMerge (ds.map fun d => d.answer sledAccepts
      (qs[k].matchers.map fun x => ⟨x.name, x.value⟩) (asU64 qs[k].start_) (asU64 qs[k].end_)) es →
      ∃ w, (∃ d ∈ ((SeqDb.fresh lo hi).run ps[k]).all, w ∈ d.h) ∧ y.labels = sortLabels w.1 ∧ z = asReported w.2 := by
    intro ds hds hm
    rw [u2] at hy
    obtain ⟨⟨ls, ps'⟩, he, rfl⟩ := List.mem_map.mp hy
    obtain ⟨p, hpp, rfl⟩ := List.mem_map.mp hz
    obtain ⟨-, rfl⟩ := (hm.entries ls ps').mp he
    obtain ⟨s, hs', hps⟩ := List.mem_flatMap.mp hpp
    obtain ⟨a, ha, hs''⟩ := List.mem_flatMap.mp hs'
    rw [List.mem_filter, decide_eq_true_eq] at hs''
    obtain ⟨d, hd, rfl⟩ := List.mem_map.mp ha
    obtain ⟨w, hw, v1, v2, -, -⟩ := answer_held (c := ⟨d.lo, d.hi, d.hi, d.h⟩) (fun w hw => hfrom d (hds d hd) w hw) hs''.1 hps
    exact ⟨w, ⟨d, hds d hd, hw⟩, hs''.2.symm.trans v2.symm, by rw [v1]⟩
  have hw : ∃ w, (∃ d ∈ ((SeqDb.fresh lo hi).run ps[k]).all, w ∈ d.h) ∧ y.labels = sortLabels w.1 ∧ z = asReported w.2 := by
    rcases u1 with u1 | ⟨-, u1⟩
    · exact key _ (fun d hd => hd) u1
    · refine key _ (fun d hd => ?_) u1
      rcases List.mem_append.mp hd with hd | hd
      · exact hd
      · rw [List.mem_singleton] at hd; subst hd; simp [SeqDb.all]
  obtain ⟨w, h1, h2, h3⟩ := hw
  refine ⟨ps[k], op', w, r3, ops_noSwap (List.mem_of_getElem? r2), ?_, h1, h2, h3⟩
  rw [r1, hNj, List.sum_append, List.sum_singleton]
  omega

/-- What the database held before a later read, the answer to that read shows. -/
theorem held_shown {sn : Snappy} {rt : PbRt} {past : Past} {lo hi : U64} {ticks : List (U64 × U64)} {calls : List Call} {c3 : SrvConf} {L3 : List DbOp} {N3 : List Nat}
    (hf : FineCalls rt calls) (D3 : OneOrder sn rt past lo hi ticks calls c3 L3 N3) {i j : Nat} (hij : i < j) {w0 : Labels × TimePoint} {p : List DbOp} {op : DbOp}
    (p3 : p ++ [op] <+: L3) (hop : op.isSwap = false) (p1 : (p.filter fun x => !x.isSwap).length < (N3.take (i + 1)).sum)
    (hst : ∃ d ∈ ((SeqDb.fresh lo hi).run p).all, w0 ∈ d.h)
    {qs : List PQuery} (hj : calls[j]? = some (.read qs)) {body : Str} (hres : c3.sent[j]? = some (some ⟨200, body⟩))
    (hqs : ∀ q ∈ qs, (∀ y ∈ q.matchers, WFLabel ⟨y.name, y.value⟩) ∧ (asU64 q.start_).toNat ≤ (asU64 q.end_).toNat)
    (k : Nat) (hk : k < qs.length) (hne : qs[k].matchers ≠ []) (hsub : ∀ y ∈ qs[k].matchers, (⟨y.name, y.value⟩ : Label) ∈ w0.1)
    (h0 : qs[k].start_ = 0) (hcov : ∀ m, Call.write m ∈ calls → ∀ s ∈ m, ∀ x ∈ s.samples, x.point.ts.toNat ≤ (asU64 qs[k].end_).toNat) :
    ∃ out, sn.decompress body = some out ∧ (out.length < 2 ^ 32 → ∃ rs r, (∀ m, IsResponse rt.utf8 m out ↔ m = rs) ∧ rs[k]? = some r ∧
      ∃ y ∈ r, y.labels = sortLabels w0.1 ∧ asReported w0.2 ∈ y.samples) := by
  obtain ⟨-, d2, d0, d3, -, -, d4⟩ := D3
  obtain ⟨hj3, -⟩ := List.getElem?_eq_some_iff.mp hres
  obtain ⟨ps', f1, f2, f3⟩ := d4 j N3[j] _ _ hj (List.getElem?_eq_getElem (by omega)) hres
  obtain ⟨body', out, g1, g2, rs, g3, g4, g5, g6⟩ := f3 hqs
  simp only [Option.some.injEq, Response.mk.injEq, true_and] at g1
  subst g1
  rw [List.length_map] at g3
  have hkp : k < ps'.length := by omega
  obtain ⟨r1, op', r2, r3⟩ := f2 k ps'[k] (List.getElem?_eq_getElem hkp)
  obtain ⟨r, hr⟩ : ∃ r, rs[k]? = some r := ⟨_, List.getElem?_eq_getElem (by omega)⟩
  have hans := g5 k ((SeqDb.fresh lo hi).run ps'[k]) qs[k] r (by rw [List.getElem?_map, List.getElem?_eq_getElem hkp]; rfl) (List.getElem?_eq_getElem hk) hr
  refine ⟨out, g2, fun hl => ⟨rs, r, g6 hl, hr, ?_⟩⟩
  have hle : (N3.take (i + 1)).sum ≤ (N3.take j).sum := by
    have : N3.take (i + 1) = (N3.take j).take (i + 1) := by rw [List.take_take]; congr 1; omega
    rw [this]
    conv_rhs => rw [← List.take_append_drop (i + 1) (N3.take j), List.sum_append]
    omega
  generalize ps'[k] = p' at *
  have q3 : p ++ [op] <+: p' := before_of_count p3 ((List.prefix_append _ _).trans r3) hop (by rw [r1]; omega)
  obtain ⟨t, ht⟩ := q3
  have hkeep : ∃ d ∈ ((SeqDb.fresh lo hi).run p').all, w0 ∈ d.h := by
    rw [← ht, SeqDb.run_append, SeqDb.run_append]
    exact SeqDb.run_keeps (SeqDb.run_keeps hst _) t
  obtain ⟨d, hd, hwd⟩ := hkeep
  have hsound : ∀ w ∈ d.h, ∃ m', Call.write m' ∈ calls ∧ ∃ s ∈ m', s.labels = w.1 ∧ (∃ x ∈ s.samples, x.point = w.2) ∧ WFSet w.1 ∧ inside d.lo d.hi w.2 = true := by
    intro w hw
    obtain ⟨pts, y1, y2, y3⟩ := SeqDb.run_from hd hw
    have y4 : DbOp.write w.1 pts ∈ calls.flatMap Call.ops := d0.subset (List.mem_filter.mpr ⟨((List.prefix_append _ _).trans r3).subset y1, rfl⟩)
    have y5 := hf.client.wf _ _ y4
    obtain ⟨kc, y6, y7⟩ := List.mem_flatMap.mp y4
    cases kc with
    | write m' =>
      obtain ⟨s, y8, y9⟩ := List.mem_map.mp y7
      simp only [DbOp.write.injEq] at y9
      rw [← y9.2] at y2
      obtain ⟨x, y10, y11⟩ := List.mem_map.mp y2
      exact ⟨m', y6, s, y8, y9.1, ⟨x, y10, y11⟩, y5, y3⟩
    | read qs => obtain ⟨s, hs, e⟩ := List.mem_map.mp y7; cases e
    | badRead => cases y7
    | other => cases y7
    | garbage => cases y7
  obtain ⟨y, hy, hyl, hyp⟩ := answer_finds (c := ⟨d.lo, d.hi, d.hi, d.h⟩) hwd (fun w hw => by
      obtain ⟨-, -, -, -, -, -, h1, h2⟩ := hsound w hw
      exact ⟨h1, h2⟩) (q := qs[k].matchers.map fun x => ⟨x.name, x.value⟩) (by simpa using hne)
    (by intro l hl; obtain ⟨z, hz, rfl⟩ := List.mem_map.mp hl; exact hsub z hz) (b := asU64 qs[k].end_) (fun w hw => by
      obtain ⟨m', h1, s, h2, -, ⟨x, h3, h4⟩, -⟩ := hsound w hw
      rw [← h4]; exact hcov m' h1 s h2 x h3)
  have hy : y ∈ d.answer sledAccepts (qs[k].matchers.map fun x => ⟨x.name, x.value⟩) (asU64 qs[k].start_) (asU64 qs[k].end_) := by
    rw [h0, show asU64 0 = 0#64 from by decide]; exact hy
  obtain ⟨es, u1, u2⟩ := hans
  have final : ∀ ds : List Desc, d ∈ ds → IsMerge ((past.map fun f => f (qs[k].matchers.map fun x => ⟨x.name, x.value⟩) (asU64 qs[k].start_) (asU64 qs[k].end_)) ++
      ds.map fun d => d.answer sledAccepts (qs[k].matchers.map fun x => ⟨x.name, x.value⟩) (asU64 qs[k].start_) (asU64 qs[k].end_)) es →
      ∃ y ∈ r, y.labels = sortLabels w0.1 ∧ asReported w0.2 ∈ y.samples := by
    intro ds hds hm
    have hsw : y ∈ seriesWith ((past.map fun f => f (qs[k].matchers.map fun x => ⟨x.name, x.value⟩) (asU64 qs[k].start_) (asU64 qs[k].end_)) ++ ds.map fun d => d.answer sledAccepts (qs[k].matchers.map fun x => ⟨x.name, x.value⟩) (asU64 qs[k].start_) (asU64 qs[k].end_))
        (sortLabels w0.1) := by
      unfold seriesWith
      exact List.mem_flatMap.mpr ⟨_, List.mem_append_right _ (List.mem_map.mpr ⟨d, hds, rfl⟩), List.mem_filter.mpr ⟨hy, by simpa using hyl⟩⟩
    have hent := (hm.entries (sortLabels w0.1) _).mpr ⟨List.ne_nil_of_mem hsw, rfl⟩
    have hmem : (⟨sortLabels w0.1, (mergedPoints ((past.map fun f => f (qs[k].matchers.map fun x => ⟨x.name, x.value⟩) (asU64 qs[k].start_)
        (asU64 qs[k].end_)) ++ ds.map fun d => d.answer sledAccepts (qs[k].matchers.map fun x => ⟨x.name, x.value⟩) (asU64 qs[k].start_)
        (asU64 qs[k].end_)) (sortLabels w0.1)).map asReported⟩ : PSeries) ∈ r := by
      rw [u2]
      exact List.mem_map.mpr ⟨_, hent, rfl⟩
    exact ⟨_, hmem, rfl, List.mem_map_of_mem (List.mem_flatMap.mpr ⟨y, hsw, hyp⟩)⟩
  rcases u1 with u1 | ⟨-, u1⟩
  · exact final _ hd u1
  · exact final _ (List.mem_append_left _ hd) u1

end Verif
