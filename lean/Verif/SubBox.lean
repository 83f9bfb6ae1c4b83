import Verif.Sub
import Verif.SubSpec

/-! # Samples of cues -/

namespace Verif.Sub

open SubSpec (box Sample)

theorem num_four (n : Nat) (h : n < 2 ^ 32) :
    num [UInt8.ofNat (n / 2 ^ 24), UInt8.ofNat (n / 2 ^ 16), UInt8.ofNat (n / 2 ^ 8), UInt8.ofNat n] = n := by
  simp only [num, List.foldl_cons, List.foldl_nil, UInt8.toNat_ofNat']
  omega

theorem box_length {nm b : Bytes} (hn : nm.length = 4) : (box nm b).length = 8 + b.length := by
  unfold box; simp [hn]; omega

theorem atoms_nil (n : Nat) : atoms n [] = some [] := by cases n <;> simp [atoms]

theorem atoms_box (n : Nat) {nm b : Bytes} (hn : nm.length = 4) (hb : b.length + 8 < 2 ^ 32) (r : Bytes) :
    atoms (n + 1) (box nm b ++ r) = (atoms n r).map ((nm, b) :: ·) := by
  have hl : (box nm b ++ r).length = 8 + b.length + r.length := by rw [List.length_append, box_length hn]
  rw [atoms, if_neg (by omega)]
  have e1 : (box nm b ++ r).take 4 = [UInt8.ofNat ((b.length + 8) / 2 ^ 24), UInt8.ofNat ((b.length + 8) / 2 ^ 16),
      UInt8.ofNat ((b.length + 8) / 2 ^ 8), UInt8.ofNat (b.length + 8)] := by
    simp [box]
  have e2 : (box nm b ++ r).drop 4 = nm ++ (b ++ r) := by simp [box]
  have e3 : (box nm b ++ r).drop 8 = b ++ r := by
    rw [show (8 : Nat) = 4 + 4 from rfl, ← List.drop_drop, e2, List.drop_left' hn]
  have e5 : atomHead (box nm b ++ r) = some (b.length, b ++ r) := by
    unfold atomHead
    simp only [e1, e3, num_four _ hb]
    rw [if_neg (by omega), if_neg (by omega), if_neg (by omega)]
    rfl
  rw [e5]
  simp only
  rw [if_neg (by rw [List.length_append]; omega), List.drop_left' rfl, List.take_left' rfl, e2, List.take_left' hn]

theorem atoms_boxes (kids : List (Bytes × Bytes)) (h4 : ∀ k ∈ kids, k.1.length = 4)
    (hs : (kids.flatMap fun k => box k.1 k.2).length < 2 ^ 32) (n : Nat) (hn : kids.length ≤ n) :
    atoms n (kids.flatMap fun k => box k.1 k.2) = some kids := by
  induction kids generalizing n with
  | nil => exact atoms_nil n
  | cons k kids ih =>
    obtain ⟨m, rfl⟩ : ∃ m, n = m + 1 := ⟨n - 1, by simp at hn; omega⟩
    rw [List.flatMap_cons] at hs ⊢
    have hk := h4 k (by simp)
    rw [List.length_append, box_length hk] at hs
    rw [atoms_box m hk (by omega), ih (fun x hx => h4 x (by simp [hx])) (by omega) m (by simpa using hn)]
    rfl

theorem lastOf_none {nm : Bytes} {l : List (Bytes × Bytes)} (h : ∀ k ∈ l, k.1 ≠ nm) : lastOf nm l = [] := by
  unfold lastOf
  rw [List.filter_eq_nil_iff.mpr (fun k hk => by simp [h k hk])]
  rfl

theorem filter_name {nm b : Bytes} {l : List (Bytes × Bytes)} (hd : (l.map (·.1)).Nodup) (h : (nm, b) ∈ l) :
    l.filter (·.1 = nm) = [(nm, b)] := by
  induction l with
  | nil => simp at h
  | cons k l ih =>
    rw [List.map_cons, List.nodup_cons] at hd
    rcases List.mem_cons.mp h with h | h
    · subst h
      rw [List.filter_cons_of_pos (by simp)]
      rw [List.filter_eq_nil_iff.mpr]
      intro x hx hc
      apply hd.1
      simp only [decide_eq_true_eq] at hc
      rw [← hc]
      exact List.mem_map.mpr ⟨x, hx, rfl⟩
    · rw [List.filter_cons_of_neg, ih hd.2 h]
      simp only [decide_eq_true_eq]
      intro hc
      apply hd.1
      rw [hc]
      exact List.mem_map.mpr ⟨_, h, rfl⟩

theorem lastOf_mem {nm b : Bytes} {l : List (Bytes × Bytes)} (hd : (l.map (·.1)).Nodup) (h : (nm, b) ∈ l) : lastOf nm l = b := by
  unfold lastOf; rw [filter_name hd h]; rfl

/-- A sample is read as the specification has it. -/
theorem cueOf_sample {d : Bytes} {x : Option (Bytes × Bytes)} (h : Sample d x) : cueOf d = x := by
  cases h with
  | cue kids text settings hd h4 hp ht hs hl =>
    have hv : (SubSpec.str "vttc").length = 4 := by decide
    rw [box_length hv] at hl
    have hk := atoms_boxes kids h4 (Nat.lt_of_le_of_lt (Nat.le_add_left _ 8) hl)
    have h1 : atoms (box (SubSpec.str "vttc") (kids.flatMap fun k => box k.1 k.2)).length
        (box (SubSpec.str "vttc") (kids.flatMap fun k => box k.1 k.2)) =
        some [(SubSpec.str "vttc", kids.flatMap fun k => box k.1 k.2)] := by
      rw [box_length hv]
      have := atoms_box (7 + (kids.flatMap fun k => box k.1 k.2).length) hv (b := kids.flatMap fun k => box k.1 k.2) (by omega) []
      rw [List.append_nil, atoms_nil] at this
      rw [show 8 + (kids.flatMap fun k => box k.1 k.2).length = 7 + (kids.flatMap fun k => box k.1 k.2).length + 1 by omega, this]
      rfl
    have hlen : kids.length ≤ (kids.flatMap fun k => box k.1 k.2).length := by
      clear hk h1 hl hs hp hd
      induction kids with
      | nil => simp
      | cons k kids ih =>
        have := ih (fun x hx => h4 x (by simp [hx]))
        rw [List.flatMap_cons, List.length_append, box_length (h4 k (by simp)), List.length_cons]; omega
    have h2 := hk _ hlen
    have hvt : (SubSpec.str "vttc") = str "vttc" := rfl
    unfold cueOf parseCue
    rw [h1]
    simp only [Option.bind_eq_bind, Option.bind_some]
    rw [List.filter_cons_of_pos (by simp [hvt]), List.filter_nil]
    simp only [List.mapM_cons, List.mapM_nil, h2, Option.bind_eq_bind, Option.bind_some, Option.pure_def, List.flatten_cons,
      List.flatten_nil, List.append_nil]
    rw [lastOf_mem hd (show (str "payl", text) ∈ kids from hp)]
    rw [if_neg ht]
    rcases hs with hs | ⟨hs, hs'⟩
    · rw [lastOf_mem hd (show (str "sttg", settings) ∈ kids from hs)]
    · rw [hs, lastOf_none (nm := str "sttg") hs']
  | empty => decide +kernel

/-! ## Sizes -/

theorem atomHead_len {b : Bytes} {size : Nat} {r : Bytes} (h : atomHead b = some (size, r)) : r.length ≤ b.length := by
  unfold atomHead at h
  simp only at h
  split at h
  · split at h
    · cases h
    · split at h
      · cases h
      · injection h with h; injection h with h1 h2; subst h2; simp only [List.length_drop]; omega
  · split at h
    · injection h with h; injection h with h1 h2; subst h2; simp only [List.length_drop]; omega
    · split at h
      · cases h
      · injection h with h; injection h with h1 h2; subst h2; simp only [List.length_drop]; omega

theorem atoms_len (n : Nat) (b : Bytes) (l : List (Bytes × Bytes)) (h : atoms n b = some l) : (l.map (·.2.length)).sum ≤ b.length := by
  induction n generalizing b l with
  | zero => rw [atoms] at h; injection h with h; subst h; simp
  | succ n ih =>
    rw [atoms] at h
    split at h
    · injection h with h; subst h; simp
    · split at h
      · cases h
      · rename_i size r hh
        have hr := atomHead_len hh
        split at h
        · cases h
        · rename_i hlen
          rw [Option.map_eq_some_iff] at h
          obtain ⟨l', h1, h2⟩ := h
          subst h2
          have := ih _ _ h1
          rw [List.map_cons, List.sum_cons]
          simp only [List.length_take, List.length_drop] at this ⊢
          omega

theorem lastOf_le (nm : Bytes) (l : List (Bytes × Bytes)) : (lastOf nm l).length ≤ ((l.filter (·.1 = nm)).map (·.2.length)).sum := by
  unfold lastOf
  generalize l.filter (·.1 = nm) = m
  cases hg : m.getLast? with
  | none => simp
  | some x =>
    have hx := List.mem_of_getLast? hg
    simp only [Option.map_some, Option.getD_some]
    clear hg
    induction m with
    | nil => simp at hx
    | cons y m ih =>
      rw [List.map_cons, List.sum_cons]
      rcases List.mem_cons.mp hx with hx | hx
      · subst hx; omega
      · have := ih hx; omega

theorem two_le {a b : Bytes} (hab : a ≠ b) (l : List (Bytes × Bytes)) :
    ((l.filter (·.1 = a)).map (·.2.length)).sum + ((l.filter (·.1 = b)).map (·.2.length)).sum ≤ (l.map (·.2.length)).sum := by
  induction l with
  | nil => simp
  | cons k l ih =>
    rw [List.map_cons, List.sum_cons]
    by_cases h1 : k.1 = a
    · have h2 : ¬ k.1 = b := by rw [h1]; exact hab
      rw [List.filter_cons_of_pos (by simp [h1]), List.filter_cons_of_neg (by simp [h2]), List.map_cons, List.sum_cons]; omega
    · rw [List.filter_cons_of_neg (by simp [h1])]
      by_cases h2 : k.1 = b
      · rw [List.filter_cons_of_pos (by simp [h2]), List.map_cons, List.sum_cons]; omega
      · rw [List.filter_cons_of_neg (by simp [h2])]; omega

theorem mapM_len (l : List (Bytes × Bytes)) (cs : List (List (Bytes × Bytes)))
    (h : l.mapM (fun x => atoms x.2.length x.2) = some cs) : (cs.flatten.map (·.2.length)).sum ≤ (l.map (·.2.length)).sum := by
  induction l generalizing cs with
  | nil => simp at h; subst h; simp
  | cons x l ih =>
    simp only [List.mapM_cons, Option.bind_eq_bind, Option.pure_def] at h
    rw [Option.bind_eq_some_iff] at h
    obtain ⟨y, h1, h2⟩ := h
    rw [Option.bind_eq_some_iff] at h2
    obtain ⟨ys, h3, h4⟩ := h2
    injection h4 with h4
    subst h4
    have := ih _ h3
    have := atoms_len _ _ _ h1
    rw [List.flatten_cons, List.map_append, List.sum_append, List.map_cons, List.sum_cons]
    omega

/-- The payload and the settings of a cue are parts of its frame, apart from each other. -/
theorem cueOf_len {d : Bytes} {c : Bytes × Bytes} (h : cueOf d = some c) : c.1.length + c.2.length ≤ d.length := by
  unfold cueOf at h
  split at h
  · cases h
  · rename_i c' hc
    split at h
    · cases h
    · injection h with h
      subst h
      unfold parseCue at hc
      simp only [Option.bind_eq_bind] at hc
      rw [Option.bind_eq_some_iff] at hc
      obtain ⟨l, h1, hc⟩ := hc
      rw [Option.bind_eq_some_iff] at hc
      obtain ⟨cs, h2, hc⟩ := hc
      injection hc with hc
      subst hc
      have a1 := atoms_len _ _ _ h1
      have a2 := mapM_len _ _ h2
      have a3 := lastOf_le (str "payl") cs.flatten
      have a4 := lastOf_le (str "sttg") cs.flatten
      have a5 := two_le (a := str "payl") (b := str "sttg") (by decide) cs.flatten
      have a6 : ((l.filter (·.1 = str "vttc")).map (·.2.length)).sum ≤ (l.map (·.2.length)).sum := by
        have := two_le (a := str "vttc") (b := []) (by decide) l
        omega
      simp only
      omega

end Verif.Sub
