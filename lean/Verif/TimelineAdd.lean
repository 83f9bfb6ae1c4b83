import Verif.TimelineCut

/-!
# Timelines: adding a segment, and setting the duration of the last one
-/

namespace Verif.Timeline

open Verif.SegmentList (SL Iter Seg Inv seq segs ahead setLast)

/-! ## The list gets a segment -/

/-- Nothing else changes when the list gets a segment. -/
theorem PerOk.lift {q q' : Segs} (H : ∀ {it key time ds}, Span q it key time ds → ds ≠ [] → Span q' it key time ds) {p : Per} {ds : List Nat}
    (h : PerOk q p ds) : PerOk q' p ds := ⟨H h.span h.ne, h.count, h.dur, h.ne⟩

theorem ManInv.lift {q q' : Segs} (H : ∀ {it key time ds}, Span q it key time ds → ds ≠ [] → Span q' it key time ds) {ps : List Per} {m : Man}
    (h : ManInv q ps m) : ManInv q' ps m := by
  cases h with
  | empty e1 e2 e3 => exact .empty e1 e2 e3
  | some A p R ds hp hf lo hi nx cs cp cd => exact .some A p R ds hp (hf.lift H) lo hi nx cs cp cd

theorem TlInv.lift {q q' : Segs} (H : ∀ {it key time ds}, Span q it key time ds → ds ≠ [] → Span q' it key time ds) {t : Tl}
    (h : TlInv q t) : TlInv q' t :=
  ⟨fun p hp => by obtain ⟨ds, hd⟩ := h.good p hp; exact ⟨ds, hd.lift H⟩, h.sorted, h.pids, h.nid, h.cs, h.cd, h.cp, h.man.lift H⟩

/-- The last segment of a period is in the list. -/
theorem PerOk.last_mem {q : Segs} {p : Per} {ds : List Nat} (h : PerOk q p ds) :
    ∃ g ∈ segs q.sl, g.idx + 1 = p.key + p.count ∧ g.time + (g.dur : Nat) = p.time + (p.dur : Nat) := by
  obtain ⟨⟨_, _, A, C, h1, _⟩, hc, hd, hne⟩ := h
  rcases SegmentList.snoc_cases ds with e | ⟨ds', d, e⟩
  · exact absurd e hne
  · rw [e, SegmentList.seq_append] at h1
    refine ⟨⟨p.key + ds'.length, p.time + (ds'.sum : Nat), d⟩, by rw [h1]; simp [seq], by rw [hc, e]; simp; omega, ?_⟩
    rw [hd, e]
    simp
    omega

theorem seg_unique {mono : Bool} {q : Segs} (h : Inv mono q.sl) {g k : Seg} (hg : g ∈ segs q.sl) (hk : k ∈ segs q.sl) (e : g.idx = k.idx) : g = k := by
  have hs := SegmentList.segs_sorted h
  obtain ⟨A, C, hA⟩ := List.append_of_mem hg
  rw [hA] at hs hk
  obtain ⟨_, p2, p3⟩ := List.pairwise_append.1 hs
  rcases List.mem_append.1 hk with hk | hk
  · have := p3 k hk g (by simp); omega
  · rcases List.mem_cons.1 hk with hk | hk
    · exact hk.symm
    · have := (List.pairwise_cons.1 p2).1 k hk; omega

/-- Two periods that end at the same index end at the same time. -/
theorem PerOk.same_end {mono : Bool} {q : Segs} (h : Inv mono q.sl) {p r : Per} {ds es : List Nat} (hp : PerOk q p ds) (hr : PerOk q r es)
    (e : p.key + p.count = r.key + r.count) : p.time + (p.dur : Nat) = r.time + (r.dur : Nat) := by
  obtain ⟨g, g1, g2, g3⟩ := hp.last_mem
  obtain ⟨k, k1, k2, k3⟩ := hr.last_mem
  have := seg_unique h g1 k1 (by omega)
  subst this
  omega

theorem rowsFrom_snoc : ∀ (d : Nat) (ps : List Per) (p : Per),
    rowsFrom d (ps ++ [p]) = rowsFrom d ps ++ (List.range' p.key p.count).map (·, d + ps.length)
  | d, [], p => by simp [rowsFrom]
  | d, r :: ps, p => by
    rw [List.cons_append, rowsFrom, rowsFrom_snoc (d + 1) ps p, rowsFrom, List.append_assoc, List.length_cons,
      show d + 1 + ps.length = d + (ps.length + 1) by omega]

theorem range'_snoc (a n : Nat) : List.range' a (n + 1) = List.range' a n ++ [a + n] := by
  rw [List.range'_concat]; simp

theorem rowsFrom_grow (d : Nat) (ps : List Per) {p p' : Per} (h1 : p'.key = p.key) (h2 : p'.count = p.count + 1) :
    rowsFrom d (ps ++ [p']) = rowsFrom d (ps ++ [p]) ++ [(p.key + p.count, d + ps.length)] := by
  rw [rowsFrom_snoc, rowsFrom_snoc, h1, h2, range'_snoc, List.map_append, List.append_assoc]
  rfl

/-- The timeline `t'` is `t` with one more segment at the end. `fresh` tells that it begins a period of the manifest. -/
structure Grow (idx dur : Nat) (now : Int) (fresh : Bool) (t t' : Tl) : Prop where
  id : t'.id = t.id
  conf : t'.conf = t.conf
  ids : ids t'.periods = ids t.periods ++ [idx]
  mconf : t'.man.conf = t.man.conf
  seq : t'.man.sequence = t.man.sequence
  target : t'.man.target = t.man.target
  targetSegs : t'.man.targetSegs = t.man.targetSegs
  lastDurs : t'.man.lastDurs = t.man.lastDurs
  firstIdx : t'.man.firstIdx = t.man.firstIdx
  perCount : t'.man.perCount = t.man.perCount + if fresh then 1 else 0
  pos : 0 < t'.man.perCount
  count : t'.man.segCount = t.man.segCount + 1
  dur : t'.man.dur = t.man.dur + dur
  rows : rows t'.periods t'.man = rows t.periods t.man ++ [(idx, t'.man.firstIdx + t'.man.perCount - 1)]
  lastMod : t'.man.lastMod = now

/-- The segment begins a period of the manifest. -/
def freshOf (t : Tl) (time : Int) (idx : Nat) (force : Bool) : Bool := newPeriod t time idx force || decide (t.man.perCount = 0)

theorem ManInv.perCount_zero {q : Segs} {ps : List Per} {m : Man} (h : ManInv q ps m) : m.perCount = 0 ↔ m.segCount = 0 := by
  cases h with
  | empty e1 e2 e3 => omega
  | some A p R ds hp hf lo hi nx cs cp cd =>
    have := Begins.pos ⟨hp, hf, lo, hi, nx, cs, cp, cd⟩
    omega

theorem rows_empty {ps : List Per} {m : Man} (h : m.segCount = 0) : rows ps m = [] := by
  unfold rows Timeline.shown; rw [if_pos h]; rfl

/-- A segment that was added to the list is added to the timeline. -/
theorem grow_spec {mono : Bool} {q : Segs} {sl : SL} {idx dur : Nat} {time : Int} (h : Inv mono q.sl)
    (ha : SegmentList.AddOk mono (segs q.sl) idx time dur) (he : SegmentList.add q.sl true idx time dur = .ok sl) {t : Tl} (ht : TlInv q t)
    (now : Int) (force : Bool) (lt : Tl → Int) : ∃ t1 t2, openPeriod { q with sl } t time idx force = .ok t1 ∧
      tlAddSeg { t1 with lastTime := lt t1 } dur now = .ok t2 ∧ TlInv { q with sl } t2 ∧ Grow idx dur now (freshOf t time idx force) t t2 := by
  obtain ⟨hi1, hs1⟩ := SegmentList.add_spec h ha he
  have hl : TlInv { q with sl } t := ht.lift (fun s _ => s.add h ha he)
  obtain ⟨it, hit, hsp⟩ := Span.last (q := { q with sl }) hi1 hs1
  dsimp only at hsp
  have hhi : hi q ≤ idx := by
    unfold hi
    cases e : (segs q.sl).getLast? with
    | none => exact Nat.zero_le _
    | some g => have := (ha.1 g e).1; dsimp only; omega
  have hend : ∀ p ∈ t.periods, p.key + p.count ≤ idx := fun p hp => Nat.le_trans ((ht.good p hp).le_hi h) hhi
  have hsp1 : PerOk { q with sl } { noPer with key := idx, count := 1, time, dur, it } [dur] := ⟨hsp, rfl, by simp, by simp⟩
  unfold openPeriod
  by_cases hn : newPeriod t time idx force = true
  · -- a new period
    rw [if_pos hn, hit]
    simp only [Res.bind_ok]
    generalize hP : ({ pid := t.nid, key := idx, count := 0, time, dur := 0, it, corr := _ } : Per) = P
    have hf : freshOf t time idx force = true := by unfold freshOf; rw [hn]; rfl
    rw [hf]
    let P' : Per := { P with count := 1, dur := dur }
    have hkey : P.key = idx := by rw [← hP]
    have hitP : P.it = it := by rw [← hP]
    have htime : P.time = time := by rw [← hP]
    have hpid : P.pid = t.nid := by rw [← hP]
    have hcnt : P.count = 0 := by rw [← hP]
    have hdur : P.dur = 0 := by rw [← hP]
    have hP'1 : PerOk { q with sl } P' [dur] :=
      ⟨by show Span _ P.it P.key P.time [dur]; rw [hitP, hkey, htime]; exact hsp, rfl, by simp [P'], by simp⟩
    have sorted' : (t.periods ++ [P']).Pairwise (fun p r => p.key + p.count ≤ r.key) := by
      rw [List.pairwise_append]
      refine ⟨ht.sorted, List.pairwise_singleton _ _, fun a ha b hb => ?_⟩
      rw [List.mem_singleton.1 hb]
      show _ ≤ P.key
      rw [hkey]; exact hend a ha
    have pids' : (t.periods ++ [P']).Pairwise (fun p r => p.pid < r.pid) := by
      rw [List.pairwise_append]
      refine ⟨ht.pids, List.pairwise_singleton _ _, fun a ha b hb => ?_⟩
      rw [List.mem_singleton.1 hb]
      show _ < P.pid
      rw [hpid]; exact ht.nid a ha
    have good' : ∀ p ∈ t.periods ++ [P'], Good { q with sl } p := fun p hp => by
      rcases List.mem_append.1 hp with hp | hp
      · exact hl.good p hp
      · rw [List.mem_singleton.1 hp]; exact ⟨_, hP'1⟩
    have nid' : ∀ p ∈ t.periods ++ [P'], p.pid < t.nid + 1 := fun p hp => by
      rcases List.mem_append.1 hp with hp | hp
      · have := ht.nid p hp; omega
      · rw [List.mem_singleton.1 hp]; show P.pid < _; omega
    have hids : ids (t.periods ++ [P']) = ids t.periods ++ [idx] := by
      rw [ids_append, ids_cons]
      show _ ++ (List.range' P.key 1 ++ _) = _
      rw [hkey]
      rfl
    have hcs : counts (t.periods ++ [P']) = t.segCount + 1 := by
      rw [counts_append, ht.cs]; rfl
    have hcd : durs (t.periods ++ [P']) = t.dur + dur := by
      rw [durs_append, ht.cd]; show _ + (dur + 0) = _; omega
    have hadd : ∀ (x : Tl), x.periods = t.periods ++ [P] → tlAddSeg x dur now =
        .ok { x with periods := t.periods ++ [P'], segCount := x.segCount + 1, dur := x.dur + dur, man := manAddSeg x.man dur now } := by
      intro x hx
      unfold tlAddSeg
      rw [hx, List.getLast?_append, List.getLast?_singleton]
      simp only [Option.some_or]
      rw [SegmentList.setLast_concat, hcnt, hdur, Nat.zero_add, Nat.zero_add]
    unfold manAddPeriod
    by_cases hpc : t.man.perCount = 0
    · -- the manifest is empty
      rw [if_pos hpc]
      unfold manAddFirst
      rw [hit]
      simp only [Res.bind_ok]
      refine ⟨_, _, rfl, hadd _ rfl, ?_, ?_⟩
      · have hsc := ht.man.perCount_zero.1 hpc
        have hB : Begins { q with sl } (t.periods ++ [P']) (manAddSeg { t.man with first := { t.man.first with key := P.key, time := P.time, dur := 0, count := 0, it }, next := none, avail := if t.man.avail = 0 then P.time else t.man.avail, firstInitTime := P.time, firstInitIdx := P.key, perCount := 1 } dur now)
            t.periods P' [] [dur] := by
          refine ⟨rfl, ⟨?_, rfl, ?_, by simp⟩, Nat.le_refl _, rfl, rfl, ?_, rfl, ?_⟩
          · show Span _ it P.key P.time [dur]
            rw [hkey, htime]; exact hsp
          · show 0 + dur = _; simp
          · show t.man.segCount + 1 = 0 + 1 + 0; omega
          · show t.man.dur + dur = 0 + dur + 0
            cases ht.man with
            | empty e1 e2 e3 => omega
            | some A p R ds hp hf lo hi nx cs cp cd => omega
        exact ⟨good', sorted', pids', nid', hcs.symm, hcd.symm, by dsimp only; rw [ht.cp]; simp, hB.inv⟩
      · have hsc := ht.man.perCount_zero.1 hpc
        refine ⟨rfl, rfl, hids, rfl, rfl, rfl, rfl, rfl, rfl, ?_, by dsimp [manAddSeg]; omega, rfl, rfl, ?_, rfl⟩
        · show 1 = t.man.perCount + 1; omega
        · rw [rows_empty hsc]
          unfold Timeline.rows
          refine (congrArg (rowsFrom _) (if_neg (c := t.man.segCount + 1 = 0) (by omega))).trans ?_
          show (List.range' P.key 1).map (·, t.man.firstIdx) ++ _ = [(idx, t.man.firstIdx + 1 - 1)]
          rw [hkey]
          rfl
    · rw [if_neg hpc]
      simp only [Res.bind_ok]
      have hpos : 0 < t.man.segCount := by
        have := ht.man.perCount_zero
        omega
      obtain ⟨A, p, R, ds, hB⟩ := hl.man.begins hpos
      have hcp := hB.cp
      let M : Man := { t.man with next := if t.man.perCount = 1 then some P.pid else t.man.next, perCount := t.man.perCount + 1 }
      have hMf : (manAddSeg M dur now).first = t.man.first := by
        unfold manAddSeg
        dsimp only
        rw [if_neg (by show t.man.perCount + 1 ≠ 1; omega)]
      have hB' : Begins { q with sl } (t.periods ++ [P']) (manAddSeg M dur now) A p (R ++ [P']) ds := by
        refine ⟨by rw [hB.hp]; simp, by rw [hMf]; exact hB.hf, by rw [hMf]; exact hB.lo, by rw [hMf]; exact hB.hi, ?_, ?_, ?_, ?_⟩
        · show (if t.man.perCount = 1 then some P.pid else t.man.next) = _
          cases R with
          | nil => rw [if_pos (by simpa using hcp)]; rfl
          | cons r R => rw [if_neg (by simp at hcp; omega), hB.nx]; rfl
        · rw [hMf, counts_append]
          show t.man.segCount + 1 = _ + (_ + (1 + 0))
          rw [hB.cs]; omega
        · show t.man.perCount + 1 = 1 + (R ++ [P']).length
          rw [hcp]; simp; omega
        · rw [hMf, durs_append]
          show t.man.dur + dur = _ + (_ + (dur + 0))
          rw [hB.cd]; omega
      refine ⟨_, _, rfl, hadd _ rfl, ⟨good', sorted', pids', nid', hcs.symm, hcd.symm, by dsimp only; rw [ht.cp]; simp, hB'.inv⟩, ?_⟩
      refine ⟨rfl, rfl, hids, rfl, rfl, rfl, rfl, rfl, rfl, rfl, by show 0 < t.man.perCount + 1; omega, rfl, rfl, ?_, rfl⟩
      show Timeline.rows (t.periods ++ [P']) (manAddSeg M dur now) = _ ++ [(idx, t.man.firstIdx + (t.man.perCount + 1) - 1)]
      unfold Timeline.rows
      rw [hB'.shown pids', hB.shown hl.pids, hMf, ← List.cons_append, rowsFrom_snoc]
      show rowsFrom t.man.firstIdx _ ++ (List.range' P.key 1).map (·, t.man.firstIdx + (t.man.first :: R).length) = _
      rw [hkey, List.length_cons, hcp, show t.man.firstIdx + (1 + R.length + 1) - 1 = t.man.firstIdx + (R.length + 1) by omega]
      rfl
  · -- the last period goes on
    have hn' : newPeriod t time idx force = false := by simpa using hn
    rcases SegmentList.snoc_cases t.periods with e | ⟨Q, P, e⟩
    · exfalso; unfold newPeriod at hn; rw [e] at hn; exact hn rfl
    · have hgl : t.periods.getLast? = some P := by rw [e]; simp
      have hP : time = P.time + P.dur ∧ idx = P.key + P.count := by
        unfold newPeriod at hn'
        rw [hgl] at hn'
        simp at hn'
        exact ⟨hn'.1.2, hn'.2⟩
      rw [if_neg hn]
      dsimp only
      let P' : Per := { P with count := P.count + 1, dur := P.dur + dur }
      obtain ⟨dsP, hPok⟩ := ht.good P (by rw [e]; simp)
      have hP'ok : PerOk { q with sl } P' (dsP ++ [dur]) :=
        ⟨hPok.span.ext h ha he hPok.ne (by rw [hP.2, hPok.count]) (by rw [hP.1, hPok.dur]), by
          show P.count + 1 = _; rw [hPok.count]; simp, by show P.dur + dur = _; rw [hPok.dur]; simp, by simp⟩
      have hso := ht.sorted
      have hpi := ht.pids
      rw [e, List.pairwise_append] at hso hpi
      have sorted' : (Q ++ [P']).Pairwise (fun p r => p.key + p.count ≤ r.key) := by
        rw [List.pairwise_append]
        refine ⟨hso.1, List.pairwise_singleton _ _, fun a ha b hb => ?_⟩
        rw [List.mem_singleton.1 hb]
        exact hso.2.2 a ha P (by simp)
      have pids' : (Q ++ [P']).Pairwise (fun p r => p.pid < r.pid) := by
        rw [List.pairwise_append]
        refine ⟨hpi.1, List.pairwise_singleton _ _, fun a ha b hb => ?_⟩
        rw [List.mem_singleton.1 hb]
        exact hpi.2.2 a ha P (by simp)
      have good' : ∀ p ∈ Q ++ [P'], Good { q with sl } p := fun p hp => by
        rcases List.mem_append.1 hp with hp | hp
        · exact hl.good p (by rw [e]; exact List.mem_append_left _ hp)
        · rw [List.mem_singleton.1 hp]; exact ⟨_, hP'ok⟩
      have nid' : ∀ p ∈ Q ++ [P'], p.pid < t.nid := fun p hp => by
        rcases List.mem_append.1 hp with hp | hp
        · exact ht.nid p (by rw [e]; exact List.mem_append_left _ hp)
        · rw [List.mem_singleton.1 hp]; exact ht.nid P (by rw [e]; simp)
      have hids : ids (Q ++ [P']) = ids t.periods ++ [idx] := by
        rw [e, ids_append, ids_append, ids_cons, ids_cons]
        show _ ++ (List.range' P.key (P.count + 1) ++ _) = _
        rw [range'_snoc, hP.2]
        simp [ids]
      have hcs : counts (Q ++ [P']) = t.segCount + 1 := by
        rw [ht.cs, e, counts_append, counts_append]; show _ + (P.count + 1 + 0) = _ + (P.count + 0) + 1; omega
      have hcd : durs (Q ++ [P']) = t.dur + dur := by
        rw [ht.cd, e, durs_append, durs_append]; show _ + (P.dur + dur + 0) = _ + (P.dur + 0) + dur; omega
      have hcp : t.perCount = (Q ++ [P']).length := by rw [ht.cp, e]; simp
      have hadd : ∀ (x : Tl), x.periods = t.periods → tlAddSeg x dur now =
          .ok { x with periods := Q ++ [P'], segCount := x.segCount + 1, dur := x.dur + dur, man := manAddSeg x.man dur now } := by
        intro x hx
        unfold tlAddSeg
        rw [hx, hgl]
        dsimp only
        rw [e, SegmentList.setLast_concat]
      by_cases hpc : t.man.perCount = 0
      · -- the manifest is empty
        have hf : freshOf t time idx force = true := by unfold freshOf; rw [hpc]; simp
        rw [hf, if_pos hpc]
        unfold manAddFirst
        rw [hit]
        simp only [Res.bind_ok]
        have hsc := ht.man.perCount_zero.1 hpc
        refine ⟨_, _, rfl, hadd _ rfl, ?_, ?_⟩
        · have hB : Begins { q with sl } (Q ++ [P']) (manAddSeg { t.man with first := { t.man.first with key := idx, time, dur := 0, count := 0, it }, next := none, avail := if t.man.avail = 0 then time else t.man.avail, firstInitTime := time, firstInitIdx := idx, perCount := 1 } dur now)
              Q P' [] [dur] := by
            refine ⟨rfl, ⟨hsp, rfl, by show 0 + dur = _; simp, by simp⟩, ?_, ?_, rfl, ?_, rfl, ?_⟩
            · show P.key ≤ idx; omega
            · show idx + (0 + 1) = P.key + (P.count + 1); omega
            · show t.man.segCount + 1 = 0 + 1 + 0; omega
            · show t.man.dur + dur = 0 + dur + 0
              cases ht.man with
              | empty e1 e2 e3 => omega
              | some A p R ds hp hf lo hi nx cs cp cd => omega
          exact ⟨good', sorted', pids', nid', hcs.symm, hcd.symm, hcp, hB.inv⟩
        · refine ⟨rfl, rfl, hids, rfl, rfl, rfl, rfl, rfl, rfl, ?_, by dsimp [manAddSeg]; omega, rfl, rfl, ?_, rfl⟩
          · show 1 = t.man.perCount + 1; omega
          · rw [rows_empty hsc]
            unfold Timeline.rows
            exact (congrArg (rowsFrom _) (if_neg (c := t.man.segCount + 1 = 0) (by omega))).trans rfl
      · have hf : freshOf t time idx force = false := by unfold freshOf; rw [hn']; simp [hpc]
        rw [hf, if_neg hpc]
        have hpos : 0 < t.man.segCount := by
          have := ht.man.perCount_zero
          omega
        obtain ⟨A, p, R, ds, hB⟩ := ht.man.begins hpos
        have hcp1 := hB.cp
        refine ⟨_, _, rfl, hadd _ rfl, ?_⟩
        rcases SegmentList.snoc_cases R with eR | ⟨R', r, eR⟩
        · -- the period is the first of the manifest
          subst eR
          have hpc1 : t.man.perCount = 1 := hcp1
          have hpp := hB.hp
          rw [e] at hpp
          obtain ⟨e1, e2⟩ := List.append_inj' hpp rfl
          injection e2 with e2
          subst e1 e2
          have hsame := hB.hf.same_end h hPok hB.hi
          have hfc := hB.hf.count
          have hfd := hB.hf.dur
          have hhi2 := hB.hi
          have hB' : Begins { q with sl } (Q ++ [P']) (manAddSeg t.man dur now) Q P' [] (ds ++ [dur]) := by
            refine ⟨rfl, ?_, ?_, ?_, hB.nx, ?_, hB.cp, ?_⟩
            · unfold manAddSeg
              dsimp only
              rw [if_pos hpc1]
              exact ⟨hB.hf.span.ext h ha he hB.hf.ne (by omega) (by rw [hP.1]; omega), by
                show t.man.first.count + 1 = _; rw [hfc]; simp, by show t.man.first.dur + dur = _; rw [hfd]; simp, by simp⟩
            · unfold manAddSeg; dsimp only; rw [if_pos hpc1]; exact hB.lo
            · unfold manAddSeg; dsimp only; rw [if_pos hpc1]; show t.man.first.key + (t.man.first.count + 1) = P.key + (P.count + 1); omega
            · unfold manAddSeg; dsimp only; rw [if_pos hpc1]; dsimp only; rw [hB.cs]; show _ + 0 + 1 = _ + 1 + 0; omega
            · unfold manAddSeg; dsimp only; rw [if_pos hpc1]; dsimp only; rw [hB.cd]; show _ + 0 + dur = _ + dur + 0; omega
          refine ⟨⟨good', sorted', pids', nid', hcs.symm, hcd.symm, hcp, hB'.inv⟩, ?_⟩
          refine ⟨rfl, rfl, hids, rfl, rfl, rfl, rfl, rfl, rfl, rfl, by show 0 < t.man.perCount; omega, rfl, rfl, ?_, rfl⟩
          show Timeline.rows (Q ++ [P']) (manAddSeg t.man dur now) = _ ++ [(idx, t.man.firstIdx + t.man.perCount - 1)]
          unfold Timeline.rows
          rw [hB'.shown pids', hB.shown ht.pids]
          have hmf : (manAddSeg t.man dur now).first = { t.man.first with count := t.man.first.count + 1, dur := t.man.first.dur + dur } := by
            unfold manAddSeg; dsimp only; rw [if_pos hpc1]
          rw [hmf, hpc1]
          have := rowsFrom_grow t.man.firstIdx [] (p := t.man.first) (p' := { t.man.first with count := t.man.first.count + 1, dur := t.man.first.dur + dur }) rfl rfl
          simp only [List.nil_append] at this
          rw [show idx = t.man.first.key + t.man.first.count by omega]
          exact this
        · subst eR
          have hpc1 : t.man.perCount ≠ 1 := by rw [hcp1]; simp
          have hpp := hB.hp
          rw [e, ← List.cons_append, ← List.append_assoc] at hpp
          obtain ⟨e1, e2⟩ := List.append_inj' hpp rfl
          injection e2 with e2
          subst e2
          have hmf : (manAddSeg t.man dur now).first = t.man.first := by
            unfold manAddSeg; dsimp only; rw [if_neg hpc1]
          have hB' : Begins { q with sl } (Q ++ [P']) (manAddSeg t.man dur now) A p (R' ++ [P']) ds := by
            refine ⟨by rw [e1]; simp, by rw [hmf]; exact hB.hf.lift (fun s _ => s.add h ha he), by rw [hmf]; exact hB.lo, by rw [hmf]; exact hB.hi, ?_, ?_, ?_, ?_⟩
            · show t.man.next = _
              rw [hB.nx]
              cases R' with
              | nil => rfl
              | cons a b => rfl
            · rw [hmf]
              show t.man.segCount + 1 = _
              rw [hB.cs, counts_append, counts_append]
              show _ + (_ + (P.count + 0)) + 1 = _ + (_ + (P.count + 1 + 0))
              omega
            · show t.man.perCount = _
              rw [hcp1]; simp
            · rw [hmf]
              show t.man.dur + dur = _
              rw [hB.cd, durs_append, durs_append]
              show _ + (_ + (P.dur + 0)) + dur = _ + (_ + (P.dur + dur + 0))
              omega
          refine ⟨⟨good', sorted', pids', nid', hcs.symm, hcd.symm, hcp, hB'.inv⟩, ?_⟩
          refine ⟨rfl, rfl, hids, rfl, rfl, rfl, rfl, rfl, rfl, rfl, by show 0 < t.man.perCount; omega, rfl, rfl, ?_, rfl⟩
          show Timeline.rows (Q ++ [P']) (manAddSeg t.man dur now) = _ ++ [(idx, t.man.firstIdx + t.man.perCount - 1)]
          unfold Timeline.rows
          rw [hB'.shown pids', hB.shown ht.pids, hmf, ← List.cons_append, ← List.cons_append,
            rowsFrom_grow (p := P) (p' := P') _ _ rfl rfl, ← hP.2, hcp1]
          show rowsFrom t.man.firstIdx _ ++ [(idx, t.man.firstIdx + (t.man.first :: R').length)] = _
          simp
          omega

end Verif.Timeline
