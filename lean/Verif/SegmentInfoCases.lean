import Verif.SegmentInfoPckg
import Verif.SegmentInfoCorrupt

/-!
# Histories of tracks (C29, C30, C37 to C39)

Concrete tracks that show that the theorems are about something, and the cases in which the code does not do what the properties
say.
-/

namespace Verif.SegmentInfo

open Verif.SegmentList (Tree Scope)

/-- The default bounds (ngx_live_segment_info.c:1016-1020), with both gaps and bitrates. -/
def conf : Conf := { gaps := true, bitrate := true, lower := 90, upper := 110 }

theorem conf_ok : ConfOk conf := ⟨by decide, by decide⟩

def okB : Option Rec → List Rec → Bool
  | _, [] => true
  | p, x :: l => (match p with | none => true | some q => decide (q.idx < x.idx)) && decide (x.idx < invalid) && decide (x.b < 2 ^ 32) &&
    okB (some x) l

theorem adds {c : Conf} : ∀ (l : List Rec) {s s' : Track} {H : List Rec} {m : Nat}, Reach c s H m →
    (H.Pairwise fun a b => a.idx < b.idx) → okB H.getLast? l = true → later c s l = .ok s' → Reach c s' (H ++ l) m
  | [], s, s', H, m, h, _, _, e => by injection e with e; rw [← e, List.append_nil]; exact h
  | x :: l, s, s', H, m, h, hp, hb, e => by
    unfold later at e
    unfold okB at hb
    simp only [Bool.and_eq_true, decide_eq_true_eq] at hb
    have hlt : ∀ y ∈ H, y.idx < x.idx := by
      intro y hy
      cases hl : H.getLast? with
      | none => rw [List.getLast?_eq_none_iff.1 hl] at hy; cases hy
      | some q =>
        rw [hl] at hb
        have hq : q.idx < x.idx := by simpa using hb.1.1.1
        obtain ⟨p, rfl⟩ := SegmentList.getLast_concat hl
        rcases List.mem_append.1 hy with hy | hy
        · have := (List.pairwise_append.1 hp).2.2 y hy q (by simp); omega
        · simp at hy; rw [hy]; exact hq
    cases hc : created c s true x.idx x.b with
    | ok s1 =>
      rw [hc, Res.bind_ok] at e
      have := adds l (Reach.created h hlt hb.1.1.2 hb.1.2 hc) (List.pairwise_append.2 ⟨hp, by simp, fun y hy z hz => by
        simp at hz; rw [hz]; exact hlt y hy⟩) (by simpa using hb.2) e
      rw [List.append_assoc] at this; exact this
    | err => rw [hc] at e; cases e
    | ub => rw [hc] at e; cases e

/-- Media and gaps in turn, with a run of equal bitrates at the end: three nodes. -/
def hist : List Rec := (List.range 300).map fun i => ⟨i, if i < 250 ∧ i % 2 = 1 then 0 else 1000 + i⟩

def track : Track := match later conf (init conf) hist with | .ok s => s | _ => init conf

theorem track_eq : later conf (init conf) hist = .ok track := by decide +kernel

theorem track_reach : Reach conf track hist 0 := adds hist Reach.init (by simp) (by decide +kernel) track_eq

instance (ns : List Node) (t : Tree) : Decidable (TreeOf ns t) := inferInstanceAs (Decidable (_ = _))

/-- A tree over three nodes. -/
def tree3 : Tree := .node (.node .leaf 0 .leaf) 1 (.node .leaf 2 .leaf)

example : track.nodes.length = 3 ∧ (elts track.nodes).length = 251 ∧ TreeOf track.nodes tree3 := by decide +kernel

/-- C29: the hypotheses are met, for a range with media and for one without. -/
example : ∃ ans, segExists track tree3 119 123 = .ok ans ∧ (ans = true ↔ ∃ r ∈ hist, 119 ≤ r.idx ∧ r.idx < 123 ∧ r.b ≠ 0) :=
  query_some conf_ok rfl track_reach (by decide +kernel) (by decide) (by decide)
    (fun i h1 h2 => .inl ⟨⟨i, if i < 250 ∧ i % 2 = 1 then 0 else 1000 + i⟩, List.mem_map.2 ⟨i, List.mem_range.2 (by omega), rfl⟩, rfl⟩)

example : segExists track tree3 119 123 = .ok true ∧ segExists track tree3 121 122 = .ok false ∧
    segExists track tree3 120 121 = .ok true := by decide +kernel

/-- C29: after the first node is freed. -/
example : (free track 200).nodes.length = 2 ∧ segExists (free track 200) (.node .leaf 0 (.node .leaf 1 .leaf)) 201 202 = .ok false ∧
    segExists (free track 200) (.node .leaf 0 (.node .leaf 1 .leaf)) 201 203 = .ok true := by decide +kernel

example : Reach conf (free track 200) hist 200 := track_reach.free 200

/-! ## Restoring -/

def block1 : Option (List UInt8) := match save track tree3 ⟨30, 199⟩ with | .ok b => b | _ => none

def copy1 : Track := match load (init conf) ⟨30, 199⟩ 2000 block1 with | .ok r => r | _ => init conf

def block2 : Option (List UInt8) := match save track tree3 ⟨200, 299⟩ with | .ok b => b | _ => none

def copy2 : Track := match load copy1 ⟨200, 299⟩ 2000 block2 with | .ok r => r | _ => init conf

/-- C30: a track that is restored from two blocks. -/
theorem copy2_chain : Chain conf track hist 0 track hist 30 copy2 300 :=
  Chain.more (t := tree3) (max := 299) (bytes := block2) (alloc := 2000)
    (Chain.first (t := tree3) (sc := ⟨30, 199⟩) (bytes := block1) (alloc := 2000) (r := copy1) (by decide +kernel) (by decide) (by decide)
      (by decide +kernel) (by decide +kernel) (by decide +kernel))
    (by decide +kernel) (by decide) (by decide +kernel) (by decide +kernel) (by decide +kernel)

theorem copy2_reach : Reach conf copy2 (hist.filter fun x => decide (x.idx < 300)) 30 :=
  track_reach.restart copy2_chain (by decide +kernel)

example : (elts copy2.nodes).length = 221 ∧ copy2.nodes.length = 2 ∧ copy2.lastBitrate = track.lastBitrate := by decide +kernel

/-- C30: segments that come later. -/
example : ∃ s' r', later conf track [⟨300, 1305⟩, ⟨301, 5000⟩, ⟨302, 0⟩] = .ok s' ∧ later conf copy2 [⟨300, 1305⟩, ⟨301, 5000⟩, ⟨302, 0⟩] = .ok r' ∧
    ∀ i, 30 ≤ i → val r' i = val s' i :=
  restored_goes_on_partial conf_ok track_reach copy2_chain (by decide +kernel) (by decide +kernel) _ (by decide +kernel) (by decide +kernel)

/-- Finding: the last bitrate is restored with a product of 32 bit. After a segment with a bitrate of 2^30 it is restored as 0, so
that a gap after the restart is not recorded, and the query says that the gap has media. -/
def bigTrack : Track := match later conf (init conf) [⟨0, 2 ^ 30⟩] with | .ok s => s | _ => init conf

def bigCopy : Track := match save bigTrack (.node .leaf 0 .leaf) ⟨0, 0⟩ with
  | .ok b => match load (init conf) ⟨0, 0⟩ 100 b with | .ok r => r | _ => init conf
  | _ => init conf

theorem restored_bitrate_wraps :
    (later conf bigTrack [⟨1, 0⟩]).map (fun s => segExists s (.node .leaf 0 .leaf) 1 2) = .ok (.ok false) ∧
    (later conf bigCopy [⟨1, 0⟩]).map (fun s => segExists s (.node .leaf 0 .leaf) 1 2) = .ok (.ok true) := by decide +kernel

/-- The same with a bitrate of 43 Mbit/s: a drop to 1 bit/s range is not recorded after the restart. -/
theorem restored_bitrate_wraps_43m :
    let s := (later conf (init conf) [⟨0, 42949673⟩]).map fun s => (s, save s (.node .leaf 0 .leaf) ⟨0, 0⟩)
    s.map (fun p => p.2.map fun b => (load (init conf) ⟨0, 0⟩ 100 b).map (·.lastBitrate)) = .ok (.ok (.ok 4)) ∧
    s.map (fun p => p.1.lastBitrate) = .ok 4294967300 := by decide +kernel

/-- Finding: with a lower bound of 0 percent media is not recorded at all, and the query says that there is none. So `ConfOk` is
needed. -/
theorem lower_bound_zero :
    (later { conf with lower := 0 } (init conf) [⟨0, 1000⟩, ⟨1, 0⟩, ⟨2, 1000⟩]).map (fun s => (s.nodes.length, segExists s .leaf 0 3)) =
      .ok (0, .ok false) := by decide +kernel

/-- An empty range can be answered with yes: the theorems are about ranges that are not empty. -/
theorem empty_range : segExists track tree3 1 1 = .ok false ∧ segExists track tree3 251 251 = .ok true := by decide +kernel

/-- A range after the last segment is answered as that segment. -/
theorem range_after_last : segExists track tree3 1000 1001 = .ok true := by decide +kernel

/-- Without gap tracking the answer is always yes. -/
theorem gaps_off (c : Conf) (h : c.gaps = false) (s : Track) (hs : s.initial = before c) (t : Tree) (a b : Nat) :
    segExists s t a b = .ok true := by
  unfold segExists
  rw [if_pos (by rw [hs, before, h]; decide)]

/-! ## The packager -/

/-- C37: two tracks, one of which has no media at times. -/
def track2 : Track := match later conf (init conf) [⟨0, 500⟩, ⟨2, 0⟩, ⟨5, 700⟩] with | .ok s => s | _ => init conf

theorem track2_reach : Reach conf track2 [⟨0, 500⟩, ⟨2, 0⟩, ⟨5, 700⟩] 0 :=
  adds [⟨0, 500⟩, ⟨2, 0⟩, ⟨5, 700⟩] Reach.init (by simp) (by decide +kernel) (by decide +kernel)

def both : List (Track × List Rec × Nat) := [(track, hist, 0), (track2, [⟨0, 500⟩, ⟨2, 0⟩, ⟨5, 700⟩], 0)]

theorem both_reach : ∀ t ∈ both, Reach conf t.1 t.2.1 t.2.2 := by
  intro t ht
  rcases List.mem_cons.1 ht with h | h
  · rw [h]; dsimp only; exact track_reach
  · rw [List.mem_singleton.1 h]; dsimp only; exact track2_reach

example : mgets (fun _ => [id, id]) [0, 1, 2, 3, 4, 5] (both.map fun t => pinit (writeServe t.1)) = [1500, 500, 1002, 0, 1004, 700] := by
  decide +kernel

example : ∃ v : Nat → Nat → Nat,
      mgets (fun _ => [id, id]) [0, 1, 2, 3, 4, 5] (both.map fun t => pinit (writeServe t.1)) =
        [0, 1, 2, 3, 4, 5].map (fun x => total ((List.range both.length).map (v · x)) [id, id]) ∧
      ∀ j t, both[j]? = some t → ∀ x, t.2.2 ≤ x → Reported conf t.2.1 x (v j x) :=
  packager_bitrates conf_ok both both_reach (fun _ => [id, id]) (fun _ => rfl) _ (by decide)

/-- C38: gaps without bitrates, in two periods, and a last segment that is not written. -/
def gapOnly : List (List Elt) := [[⟨0, 1⟩, ⟨3, 0⟩, ⟨6, 1⟩, ⟨12, 0⟩], [⟨0, 0⟩, ⟨5, 1⟩, ⟨11, 0⟩]]

example : (gapTags (fun _ => [id, id]) [2, 3, 4, 5, 10, 11, 12] (gapOnly.map pinit) 0).1 = 3 ∧
    gapRoom [(2, 4), (10, 4)] (gapOnly.map pinit) 0 = 5 := by decide +kernel

example : (gapTags (fun _ => [id, id]) [2, 3, 4, 5, 10, 11, 12] (gapOnly.map pinit) 0).1 ≤ gapRoom [(2, 4), (10, 4)] (gapOnly.map pinit) 0 :=
  gap_room (by decide) (by unfold Sorted; decide) (by decide) _ (fun _ => rfl) (by unfold Periods Periods Periods; decide)
    ⟨2, 4, [10, 11, 12], by decide, by decide, rfl, 10, 3, [], by decide, by decide, rfl, rfl⟩

/-! ## Any bytes -/

/-- C39: bytes that are not in order are refused. -/
example : readIndex (init conf) ⟨0, 10⟩ 10 (encode [⟨3, 5⟩, ⟨3, 6⟩]) (some 0) = .err := by decide +kernel

/-- C39: with a range that ends at the invalid index (which is refused before, ngx_live_persist_index.c:430-438) the indexes could
start again. -/
theorem indexes_start_again :
    (readIndex (init conf) ⟨0, invalid⟩ 10 (encode [⟨invalid, 5⟩, ⟨0, 6⟩]) (some 0)).map (fun r => elts r.nodes) =
      .ok [⟨invalid, 5⟩, ⟨0, 6⟩] := by decide +kernel

end Verif.SegmentInfo
