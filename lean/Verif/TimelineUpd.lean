import Verif.TimelineAdd

/-!
# Timelines: setting the duration of the last segment
-/

namespace Verif.Timeline

open Verif.SegmentList (SL Iter Seg Inv seq segs ahead setLast)

/-- All that ends at `b` or before stays as it is. -/
def LiftB (q q' : Segs) (b : Nat) : Prop :=
  ∀ {it key time ds}, Span q it key time ds → ds ≠ [] → key + ds.length ≤ b → Span q' it key time ds

theorem PerOk.liftB {q q' : Segs} {b : Nat} (H : LiftB q q' b) {p : Per} {ds : List Nat} (h : PerOk q p ds) (hb : p.key + p.count ≤ b) :
    PerOk q' p ds := ⟨H h.span h.ne (by rw [← h.count]; exact hb), h.count, h.dur, h.ne⟩

theorem Good.liftB {q q' : Segs} {b : Nat} (H : LiftB q q' b) {p : Per} (h : Good q p) (hb : p.key + p.count ≤ b) : Good q' p := by
  obtain ⟨ds, h⟩ := h; exact ⟨ds, h.liftB H hb⟩

theorem TlInv.liftB {q q' : Segs} {b : Nat} (H : LiftB q q' b) {t : Tl} (h : TlInv q t) (hb : ∀ p ∈ t.periods, p.key + p.count ≤ b) :
    TlInv q' t := by
  refine ⟨fun p hp => (h.good p hp).liftB H (hb p hp), h.sorted, h.pids, h.nid, h.cs, h.cd, h.cp, ?_⟩
  cases h.man with
  | empty e1 e2 e3 => exact .empty e1 e2 e3
  | some A p R ds hp hf lo hi nx cs cp cd =>
    exact .some A p R ds hp (hf.liftB H (by rw [hi]; exact hb p (by rw [hp]; simp))) lo hi nx cs cp cd

/-- The timeline `t'` is `t` with another duration of the last segment. -/
structure Redur (dur : Nat) (t t' : Tl) : Prop where
  id : t'.id = t.id
  conf : t'.conf = t.conf
  ids : ids t'.periods = ids t.periods
  mconf : t'.man.conf = t.man.conf
  seq : t'.man.sequence = t.man.sequence
  firstIdx : t'.man.firstIdx = t.man.firstIdx
  perCount : t'.man.perCount = t.man.perCount
  count : t'.man.segCount = t.man.segCount
  rows : rows t'.periods t'.man = rows t.periods t.man
  target : t.man.target ≤ t'.man.target
  keys : t'.periods.map (·.key) = t.periods.map (·.key)

theorem Redur.refl (dur : Nat) (t : Tl) : Redur dur t t := ⟨rfl, rfl, rfl, rfl, rfl, rfl, rfl, rfl, rfl, Nat.le_refl _, rfl⟩

/-- A period with the new duration of the last segment. -/
theorem PerOk.redur {mono : Bool} {q : Segs} {sl : SL} {dur : Nat} (h : Inv mono q.sl) (hd : dur < 2 ^ 32) {H : List Seg} {g : Seg}
    (hg : segs q.sl = H ++ [g]) (hB : g.time + (dur : Nat) ≤ SegmentList.B) (he : SegmentList.updateLast q.sl dur = .ok sl)
    {p : Per} {ds : List Nat} (hp : PerOk q p ds) (hl : p.key + p.count = g.idx + 1) :
    ∃ it ds', refresh { q with sl } p = .ok it ∧
      PerOk { q with sl } { p with dur := p.dur + dur, it } (ds' ++ [dur]) := by
  obtain ⟨i1, s2, _⟩ := SegmentList.update_spec h hd hg hB he
  obtain ⟨ds', e1, e2, e3, e4⟩ := hp.span.updLast h hd hg hB he (by rw [← hp.count]; exact hl) hp.ne
  obtain ⟨it, l1, l2⟩ := Span.last (q := { q with sl }) i1 s2
  have hc := hp.count
  have hdd := hp.dur
  rw [e1] at hc hdd
  simp only [List.length_append, List.length_cons, List.length_nil, List.sum_append, List.sum_cons, List.sum_nil] at hc hdd
  by_cases hz : ds' = []
  · subst hz
    refine ⟨it, [], by unfold refresh; rw [if_pos (by simpa using hc)]; exact l1, ?_, by simpa using hc, by simp at hdd ⊢; omega, by simp⟩
    simp at e2 e3
    dsimp only at l2 ⊢
    rw [← e2, ← e3]
    exact l2
  · have := List.length_pos_iff.2 hz
    refine ⟨p.it, ds', by unfold refresh; rw [if_neg (by omega)], e4 hz, by dsimp only; simp; omega, by dsimp only; simp; omega, by simp⟩

theorem rows_congr {ps ps' : List Per} {m m' : Man} (h2 : m'.firstIdx = m.firstIdx)
    (h3 : (shown ps' m').map (fun p => (p.key, p.count)) = (shown ps m).map (fun p => (p.key, p.count))) : rows ps' m' = rows ps m := by
  have key : ∀ (a b : List Per) (d : Nat), a.map (fun p => (p.key, p.count)) = b.map (fun p => (p.key, p.count)) → rowsFrom d a = rowsFrom d b := by
    intro a
    induction a with
    | nil => intro b d e; cases b with
      | nil => rfl
      | cons _ _ => exact nomatch e
    | cons x a ih => intro b d e; cases b with
      | nil => exact nomatch e
      | cons y b =>
        simp only [List.map_cons, List.cons.injEq, Prod.mk.injEq] at e
        rw [rowsFrom, rowsFrom, e.1.1, e.1.2, ih b (d + 1) e.2]
  unfold rows
  rw [h2]
  exact key _ _ _ h3

theorem manPostAdd_same (m : Man) (dur : Nat) : (manPostAdd m dur).first = m.first ∧ (manPostAdd m dur).next = m.next ∧
    (manPostAdd m dur).segCount = m.segCount ∧ (manPostAdd m dur).perCount = m.perCount ∧ (manPostAdd m dur).dur = m.dur ∧
    (manPostAdd m dur).firstIdx = m.firstIdx ∧ (manPostAdd m dur).sequence = m.sequence ∧ (manPostAdd m dur).conf = m.conf ∧
    m.target ≤ (manPostAdd m dur).target := by
  refine ⟨rfl, rfl, rfl, rfl, rfl, rfl, rfl, rfl, ?_⟩
  unfold manPostAdd
  dsimp only
  split <;> omega

theorem ManInv.congr {q : Segs} {ps : List Per} {m m' : Man} (h : ManInv q ps m) (e1 : m'.first = m.first) (e2 : m'.next = m.next)
    (e3 : m'.segCount = m.segCount) (e4 : m'.perCount = m.perCount) (e5 : m'.dur = m.dur) : ManInv q ps m' := by
  cases h with
  | empty a b c => exact .empty (by omega) (by omega) (by omega)
  | some A p R ds hp hf lo hi nx cs cp cd =>
    exact .some A p R ds hp (by rw [e1]; exact hf) (by rw [e1]; exact lo) (by rw [e1]; exact hi) (by rw [e2]; exact nx)
      (by rw [e1, e3]; exact cs) (by rw [e4]; exact cp) (by rw [e1, e5]; exact cd)

theorem shown_congr {ps : List Per} {m m' : Man} (e1 : m'.first = m.first) (e2 : m'.next = m.next) (e3 : m'.segCount = m.segCount) :
    shown ps m' = shown ps m := by unfold Timeline.shown; rw [e1, e2, e3]

theorem rows_post {ps : List Per} {m : Man} (dur : Nat) : rows ps (manPostAdd m dur) = rows ps m := rfl

theorem updTl_spec {mono : Bool} {q : Segs} {sl : SL} {dur : Nat} (h : Inv mono q.sl) (hd : dur < 2 ^ 32) {H : List Seg} {g : Seg}
    (hg : segs q.sl = H ++ [g]) (hB : g.time + (dur : Nat) ≤ SegmentList.B) (he : SegmentList.updateLast q.sl dur = .ok sl)
    {t : Tl} (ht : TlInv q t) : ∃ t', updTl { q with sl } g.idx dur t = .ok t' ∧ TlInv { q with sl } t' ∧ Redur dur t t' := by
  have L : LiftB q { q with sl } g.idx := fun s hne hl => s.upd h hd hg hB he hne hl
  have hhi := hi_snoc hg
  unfold updTl
  rcases SegmentList.snoc_cases t.periods with e | ⟨Q, P, e⟩
  · rw [e]
    exact ⟨t, rfl, ht.liftB L (fun p hp => by rw [e] at hp; exact absurd hp List.not_mem_nil), .refl _ _⟩
  · have hgl : t.periods.getLast? = some P := by rw [e]; simp
    rw [hgl]
    dsimp only
    have hPm : P ∈ t.periods := by rw [e]; simp
    have hso := ht.sorted
    rw [e, List.pairwise_append] at hso
    have hple := (ht.good P hPm).le_hi h
    have hppos := (ht.good P hPm).pos
    have hQ : ∀ p ∈ Q, p.key + p.count ≤ P.key := fun p hp => hso.2.2 p hp P (by simp)
    rw [sub32_ok (by omega)]
    by_cases hlast : P.key + P.count - 1 = g.idx
    · rw [if_neg (by omega)]
      obtain ⟨dsP, hPok⟩ := ht.good P hPm
      obtain ⟨it, ds', i1, i2⟩ := hPok.redur h hd hg hB he (by omega)
      rw [i1]
      simp only [Res.bind_ok]
      rw [e, SegmentList.setLast_concat]
      generalize hP' : ({ P with dur := P.dur + dur, it } : Per) = P' at *
      have k1 : P'.key = P.key := by rw [← hP']
      have k2 : P'.count = P.count := by rw [← hP']
      have k3 : P'.pid = P.pid := by rw [← hP']
      have k4 : P'.dur = P.dur + dur := by rw [← hP']
      have hpi := ht.pids
      rw [e, List.pairwise_append] at hpi
      have sorted' : (Q ++ [P']).Pairwise (fun p r => p.key + p.count ≤ r.key) := by
        rw [List.pairwise_append]
        refine ⟨hso.1, List.pairwise_singleton _ _, fun a ha b hb => ?_⟩
        rw [List.mem_singleton.1 hb, k1]
        exact hQ a ha
      have pids' : (Q ++ [P']).Pairwise (fun p r => p.pid < r.pid) := by
        rw [List.pairwise_append]
        refine ⟨hpi.1, List.pairwise_singleton _ _, fun a ha b hb => ?_⟩
        rw [List.mem_singleton.1 hb, k3]
        exact hpi.2.2 a ha P (by simp)
      have good' : ∀ p ∈ Q ++ [P'], Good { q with sl } p := fun p hp => by
        rcases List.mem_append.1 hp with hp | hp
        · exact (ht.good p (by rw [e]; exact List.mem_append_left _ hp)).liftB L (by have := hQ p hp; omega)
        · rw [List.mem_singleton.1 hp]; exact ⟨_, i2⟩
      have nid' : ∀ p ∈ Q ++ [P'], p.pid < t.nid := fun p hp => by
        rcases List.mem_append.1 hp with hp | hp
        · exact ht.nid p (by rw [e]; exact List.mem_append_left _ hp)
        · rw [List.mem_singleton.1 hp, k3]; exact ht.nid P hPm
      have hids : ids (Q ++ [P']) = ids t.periods := by
        rw [e, ids_append, ids_append, ids_cons, ids_cons, k1, k2]
      have hcs : t.segCount = counts (Q ++ [P']) := by
        rw [ht.cs, e, counts_append, counts_append, counts_cons, counts_cons, k2]
      have hcd : t.dur + dur = durs (Q ++ [P']) := by
        rw [ht.cd, e, durs_append, durs_append, durs_cons, durs_cons, k4]; omega
      have hcp : t.perCount = (Q ++ [P']).length := by rw [ht.cp, e]; simp
      have hkeys : (Q ++ [P']).map (·.key) = t.periods.map (·.key) := by rw [e]; simp [k1]
      by_cases hpos : t.man.segCount > 0
      · rw [if_pos hpos]
        obtain ⟨A, p, R, ds, hB'⟩ := ht.man.begins hpos
        have hcp1 := hB'.cp
        rcases SegmentList.snoc_cases R with eR | ⟨R', r, eR⟩
        · subst eR
          have hpc1 : t.man.perCount = 1 := hcp1
          have hpp := hB'.hp
          rw [e] at hpp
          obtain ⟨e1, e2⟩ := List.append_inj' hpp rfl
          injection e2 with e2
          subst e1 e2
          have hhi2 := hB'.hi
          obtain ⟨itF, dsF, f1, f2⟩ := hB'.hf.redur h hd hg hB he (by omega)
          unfold updMan
          rw [if_pos hpc1, f1]
          simp only [Res.bind_ok]
          have hB2 : Begins { q with sl } (Q ++ [P']) { t.man with first := { t.man.first with dur := t.man.first.dur + dur, it := itF }, dur := t.man.dur + dur } Q P' [] (dsF ++ [dur]) := by
            refine ⟨rfl, f2, ?_, ?_, hB'.nx, hB'.cs, hB'.cp, ?_⟩
            · rw [k1]; exact hB'.lo
            · rw [k1, k2]; exact hB'.hi
            · have := hB'.cd
              dsimp only
              rw [this]
              show _ + 0 + dur = _ + dur + 0
              omega
          refine ⟨_, rfl, ⟨good', sorted', pids', nid', hcs, hcd, hcp, hB2.inv.congr rfl rfl rfl rfl rfl⟩, ?_⟩
          refine ⟨rfl, rfl, hids, rfl, rfl, rfl, rfl, rfl, ?_, (manPostAdd_same { t.man with first := { t.man.first with dur := t.man.first.dur + dur, it := itF }, dur := t.man.dur + dur } dur).2.2.2.2.2.2.2.2, hkeys⟩
          rw [rows_post]
          refine rows_congr rfl ?_
          rw [hB2.shown pids', hB'.shown ht.pids]
          rfl
        · subst eR
          have hpc1 : t.man.perCount ≠ 1 := by rw [hcp1]; simp
          have hpp := hB'.hp
          rw [e, ← List.cons_append, ← List.append_assoc] at hpp
          obtain ⟨e1, e2⟩ := List.append_inj' hpp rfl
          injection e2 with e2
          subst e2
          unfold updMan
          rw [if_neg hpc1]
          simp only [Res.bind_ok]
          have hB2 : Begins { q with sl } (Q ++ [P']) { t.man with dur := t.man.dur + dur } A p (R' ++ [P']) ds := by
            refine ⟨by rw [e1]; simp, ?_, hB'.lo, hB'.hi, ?_, ?_, ?_, ?_⟩
            · refine hB'.hf.liftB L ?_
              rw [hB'.hi]
              have := hQ p (by rw [e1]; simp)
              omega
            · show t.man.next = _
              rw [hB'.nx]
              cases R' with
              | nil => simp [k3]
              | cons a b => rfl
            · have := hB'.cs
              dsimp only
              rw [this, counts_append, counts_append, counts_cons, counts_cons, k2]
            · show t.man.perCount = _
              rw [hcp1]; simp
            · have := hB'.cd
              dsimp only
              rw [this, durs_append, durs_append, durs_cons, durs_cons, k4]; omega
          refine ⟨_, rfl, ⟨good', sorted', pids', nid', hcs, hcd, hcp, hB2.inv.congr rfl rfl rfl rfl rfl⟩, ?_⟩
          refine ⟨rfl, rfl, hids, rfl, rfl, rfl, rfl, rfl, ?_, (manPostAdd_same { t.man with dur := t.man.dur + dur } dur).2.2.2.2.2.2.2.2, hkeys⟩
          rw [rows_post]
          refine rows_congr rfl ?_
          rw [hB2.shown pids', hB'.shown ht.pids]
          simp [k1, k2]
      · rw [if_neg hpos]
        have hme : t.man.segCount = 0 := by omega
        refine ⟨_, rfl, ⟨good', sorted', pids', nid', hcs, hcd, hcp, ?_⟩, ⟨rfl, rfl, hids, rfl, rfl, rfl, rfl, rfl, ?_, Nat.le_refl _, hkeys⟩⟩
        · cases ht.man with
          | empty e1 e2 e3 => exact .empty e1 e2 e3
          | some A p R ds hp hf lo hi nx cs cp cd =>
            have := Begins.pos ⟨hp, hf, lo, hi, nx, cs, cp, cd⟩
            omega
        · rw [rows_empty hme, rows_empty hme]
    · rw [if_pos hlast]
      refine ⟨t, rfl, ht.liftB L (fun p hp => ?_), .refl _ _⟩
      rw [e] at hp
      rcases List.mem_append.1 hp with hp | hp
      · have := hQ p hp; omega
      · rw [List.mem_singleton.1 hp]; omega

end Verif.Timeline
