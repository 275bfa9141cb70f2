import Verif.Spec.FloatWeights
import Verif.Spec.ShortestPath
import Verif.Props.C60_C64_Dijkstra
import Mathlib.Tactic.Ring
import Mathlib.Tactic.Linarith
import Mathlib.Data.List.Perm.Subperm

/-!
# Dijkstra's search on floating-point weights
-/

namespace PyBGL
open Dijkstra
variable {V E : Type} [DecidableEq V] [DecidableEq E]

namespace FloatFormat
variable (F : FloatFormat)

/-- Rounding to the nearest is monotone, whatever happens in case of a tie. -/
theorem rnd_mono {x y : Rat} (h : x ≤ y) : F.rnd x ≤ F.rnd y := by
  by_contra hc
  push Not at hc
  rcases lt_or_eq_of_le h with h | h
  · have h1 := F.nearest x (F.rnd y) (F.mem_rnd y)
    have h2 := F.nearest y (F.rnd x) (F.mem_rnd x)
    rcases abs_cases (F.rnd x - x) with ⟨a, a'⟩ | ⟨a, a'⟩ <;> rcases abs_cases (F.rnd y - x) with ⟨b, b'⟩ | ⟨b, b'⟩ <;>
      rcases abs_cases (F.rnd y - y) with ⟨c, c'⟩ | ⟨c, c'⟩ <;> rcases abs_cases (F.rnd x - y) with ⟨d, d'⟩ | ⟨d, d'⟩ <;>
      rw [a, b] at h1 <;> rw [c, d] at h2 <;> linarith
  · rw [h] at hc; exact lt_irrefl _ hc

/-- The numbers of the format are not rounded. -/
theorem rnd_mem {x : Rat} (h : F.mem x) : F.rnd x = x := by
  have := F.nearest x x h
  rw [sub_self, abs_zero] at this
  have := abs_nonpos_iff.mp this
  linarith

theorem less_iff {x y : F.Num} : F.less x y = true ↔ x.val < y.val := by unfold less; simp

theorem less_false {x y : F.Num} : F.less x y = false ↔ y.val ≤ x.val := by unfold less; simp

theorem val_inj {x y : F.Num} (h : x.val = y.val) : x = y := by cases x; cases y; cases h; rfl

/-- A weight: a non-negative number of the format. -/
def Weight (w : F.Num) : Prop := F.mem w.val ∧ 0 ≤ w.val

theorem plus_val {x w : F.Num} (h : x ≠ F.infNum) (hw : w ≠ F.infNum) : (F.closedPlus x w).val = F.rnd (x.val + w.val) := by
  unfold closedPlus
  rw [if_neg (by simp [h, hw])]

theorem plus_inf {x w : F.Num} (h : x = F.infNum ∨ w = F.infNum) : F.closedPlus x w = F.infNum := by unfold closedPlus; rw [if_pos h]

theorem mem_of_ne {x : F.Num} (h : x ≠ F.infNum) : F.mem x.val := by
  rcases x.ok with h' | h'
  · exact h'
  · exact absurd (F.val_inj h') h

theorem le_rnd_add {x w : Rat} (hx : F.mem x) (hw : 0 ≤ w) : x ≤ F.rnd (x + w) := by
  have := F.rnd_mono (show x ≤ x + w by linarith)
  rwa [F.rnd_mem hx] at this

/-- Sums of non-negative floats are fit for Dijkstra's search, although the addition of floats is not associative. -/
theorem algebra : SelectiveAlgebra F.less F.closedPlus F.zeroNum F.infNum F.Weight := by
  have hback : ∀ a w, F.Weight w → F.less (F.closedPlus a w) F.infNum = true → F.less a F.infNum = true ∧ w ≠ F.infNum := by
    intro a w hw h
    rw [less_iff] at h ⊢
    by_cases h1 : a = F.infNum
    · rw [F.plus_inf (.inl h1)] at h; exact absurd h (lt_irrefl _)
    · by_cases h2 : w = F.infNum
      · rw [F.plus_inf (.inr h2)] at h; exact absurd h (lt_irrefl _)
      · rw [F.plus_val h1 h2] at h
        exact ⟨lt_of_le_of_lt (F.le_rnd_add (F.mem_of_ne h1) hw.2) h, h2⟩
  refine ⟨fun x => ?_, fun x y z h1 h2 => ?_, fun x y => ?_, ?_, fun a w hw h => ?_, fun a w hw h => (hback a w hw h).1, fun a b w hw h1 h2 => ?_⟩
  · rw [less_false]
  · rw [less_iff] at *; exact lt_trans h1 h2
  · rw [less_iff, less_iff]
    rcases lt_trichotomy x.val y.val with h | h | h
    · exact .inl h
    · exact .inr (.inl (F.val_inj h))
    · exact .inr (.inr h)
  · rw [less_iff]
    show (0 : Rat) < ((INFINITY : Int) : Rat)
    exact_mod_cast (by decide : (0 : Int) < INFINITY)
  · rw [less_iff] at h
    rw [less_false]
    have h1 : a ≠ F.infNum := by rintro rfl; exact lt_irrefl _ h
    by_cases h2 : w = F.infNum
    · rw [F.plus_inf (.inr h2)]; exact le_of_lt h
    · rw [F.plus_val h1 h2]; exact F.le_rnd_add (F.mem_of_ne h1) hw.2
  · obtain ⟨h3, h4⟩ := hback b w hw h2
    rw [less_false] at h1 ⊢
    rw [less_iff] at h2 h3
    have hb : b ≠ F.infNum := by rintro rfl; exact lt_irrefl _ h3
    have ha : a ≠ F.infNum := by rintro rfl; exact lt_irrefl _ (lt_of_le_of_lt h1 h3)
    rw [F.plus_val ha h4, F.plus_val hb h4]
    exact F.rnd_mono (by linarith)

/-! ## Sums -/

theorem sumFrom_le (x : Rat) (hx : F.mem x) (l : List Rat) (hl : ∀ w ∈ l, 0 ≤ w) : x ≤ F.sumFrom x l ∧ F.mem (F.sumFrom x l) := by
  induction l generalizing x with
  | nil => exact ⟨le_refl _, hx⟩
  | cons w l ih =>
    have h := ih (F.rnd (x + w)) (F.mem_rnd _) (fun w' h' => hl w' (by simp [h']))
    exact ⟨le_trans (F.le_rnd_add hx (hl w (by simp))) h.1, h.2⟩

theorem sumFrom_mono (l : List Rat) : ∀ {x y : Rat}, x ≤ y → F.sumFrom x l ≤ F.sumFrom y l := by
  induction l with
  | nil => intro x y h; exact h
  | cons w l ih => intro x y h; exact ih (F.rnd_mono (by linarith))

/-- Fewer numbers have a smaller sum. -/
theorem sumFrom_sublist {l l' : List Rat} (h : l.Sublist l') (hl : ∀ w ∈ l', 0 ≤ w) : ∀ {x : Rat}, F.mem x → F.sumFrom x l ≤ F.sumFrom x l' := by
  induction h with
  | slnil => intro x _; exact le_refl _
  | @cons l l' w h ih =>
    intro x hx
    refine le_trans (F.sumFrom_mono l (F.le_rnd_add hx (hl w (by simp)))) ?_
    exact ih (fun w' h' => hl w' (by simp [h'])) (F.mem_rnd _)
  | @cons_cons l l' w h ih =>
    intro x hx
    exact ih (fun w' h' => hl w' (by simp [h'])) (F.mem_rnd _)

omit [DecidableEq E] in
/-- Below `INFINITY`, `combine` sums up the weights. -/
theorem pathWeight_eq (weight : E → F.Num) (p : List E) (hp : ∀ e ∈ p, F.Weight (weight e)) :
    (((pathWeight F.closedPlus F.zeroNum weight p).val < (INFINITY : Rat) ↔ F.sumFrom 0 (p.map fun e => (weight e).val) < (INFINITY : Rat)) ∧
      (F.sumFrom 0 (p.map fun e => (weight e).val) < (INFINITY : Rat) → (pathWeight F.closedPlus F.zeroNum weight p).val = F.sumFrom 0 (p.map fun e => (weight e).val))) := by
  have key : ∀ (p : List E), (∀ e ∈ p, F.Weight (weight e)) → ∀ (x : F.Num) (y : Rat), F.mem y → 0 ≤ y → ((x.val < (INFINITY : Rat) ∧ y = x.val) ∨ ((INFINITY : Rat) ≤ x.val ∧ (INFINITY : Rat) ≤ y)) →
      (((p.foldl (fun d e => F.closedPlus d (weight e)) x).val < (INFINITY : Rat) ∧ F.sumFrom y (p.map fun e => (weight e).val) = (p.foldl (fun d e => F.closedPlus d (weight e)) x).val) ∨
        ((INFINITY : Rat) ≤ (p.foldl (fun d e => F.closedPlus d (weight e)) x).val ∧ (INFINITY : Rat) ≤ F.sumFrom y (p.map fun e => (weight e).val))) := by
    intro p
    induction p with
    | nil => intro _ x y _ _ h; exact h
    | cons e p ih =>
      intro hp x y hy h0 h
      have he := hp e (by simp)
      refine ih (fun e' h' => hp e' (by simp [h'])) (F.closedPlus x (weight e)) (F.rnd (y + (weight e).val)) (F.mem_rnd _) (le_trans h0 (F.le_rnd_add hy he.2)) ?_
      rcases h with ⟨h1, rfl⟩ | ⟨h1, h2⟩
      · have hx : x ≠ F.infNum := by rintro rfl; exact lt_irrefl _ h1
        by_cases hw : weight e = F.infNum
        · right
          rw [F.plus_inf (.inr hw)]
          refine ⟨le_refl _, ?_⟩
          rw [hw]
          have hm : F.mem F.infNum.val := hw ▸ he.1
          have := F.rnd_mono (show F.infNum.val ≤ x.val + F.infNum.val by linarith)
          rwa [F.rnd_mem hm] at this
        · rw [F.plus_val hx hw]
          rcases lt_or_ge (F.rnd (x.val + (weight e).val)) (INFINITY : Rat) with h | h
          · exact .inl ⟨h, rfl⟩
          · exact .inr ⟨h, h⟩
      · right
        refine ⟨?_, le_trans h2 (F.le_rnd_add hy he.2)⟩
        by_cases hx : x = F.infNum ∨ weight e = F.infNum
        · rw [F.plus_inf hx]; exact le_refl _
        · rw [not_or] at hx
          rw [F.plus_val hx.1 hx.2]
          exact le_trans h1 (F.le_rnd_add (F.mem_of_ne hx.1) he.2)
  have h0 : (0 : Rat) < ((INFINITY : Int) : Rat) := by exact_mod_cast (by decide : (0 : Int) < INFINITY)
  rcases key p hp F.zeroNum 0 F.zero (le_refl _) (.inl ⟨h0, rfl⟩) with ⟨h1, h2⟩ | ⟨h1, h2⟩
  · exact ⟨by rw [h2]; rfl, fun _ => h2.symm⟩
  · exact ⟨⟨fun h => absurd h (not_lt.mpr h1), fun h => absurd h (not_lt.mpr h2)⟩, fun h => absurd h (not_lt.mpr h2)⟩

/-! ## Errors -/

theorem sum_nonneg {l : List Rat} (h : ∀ w ∈ l, 0 ≤ w) : 0 ≤ l.sum := by
  induction l with
  | nil => simp
  | cons w l ih =>
    have h1 := h w (by simp)
    have h2 := ih fun w' h' => h w' (by simp [h'])
    simp only [List.sum_cons]
    linarith

theorem sum_sublist {l l' : List Rat} (h : l.Sublist l') (hl : ∀ w ∈ l', 0 ≤ w) : l.sum ≤ l'.sum := by
  induction h with
  | slnil => exact le_refl _
  | @cons l l' w h ih =>
    have h1 := hl w (by simp)
    have h2 := ih fun w' h' => hl w' (by simp [h'])
    simp only [List.sum_cons]
    linarith
  | @cons_cons l l' w h ih =>
    have h2 := ih fun w' h' => hl w' (by simp [h'])
    simp only [List.sum_cons]
    linarith

/-- The error of a sum. -/
theorem sumFrom_error {ε : Rat} (hF : F.Precise ε) (h0 : 0 ≤ ε) (h1 : ε ≤ 1) (l : List Rat) : ∀ x, F.mem x → 0 ≤ x → (∀ w ∈ l, F.mem w ∧ 0 ≤ w) →
    (1 - ε) ^ l.length * (x + l.sum) ≤ F.sumFrom x l ∧ F.sumFrom x l ≤ (1 + ε) ^ l.length * (x + l.sum) := by
  induction l with
  | nil => intro x _ _ _; simp [sumFrom]
  | cons w l ih =>
    intro x hx hx0 hl
    obtain ⟨hw, hw0⟩ := hl w (by simp)
    have hs : 0 ≤ l.sum := sum_nonneg fun w' h' => (hl w' (by simp [h'])).2
    have hr0 : 0 ≤ F.rnd (x + w) := le_trans hx0 (F.le_rnd_add hx hw0)
    obtain ⟨i1, i2⟩ := ih (F.rnd (x + w)) (F.mem_rnd _) hr0 fun w' h' => hl w' (by simp [h'])
    have he := abs_le.mp (hF x w hx hw hx0 hw0)
    have e1 : F.sumFrom x (w :: l) = F.sumFrom (F.rnd (x + w)) l := rfl
    rw [e1, List.length_cons, pow_succ, pow_succ, List.sum_cons]
    constructor
    · refine le_trans ?_ i1
      rw [mul_assoc]
      refine mul_le_mul_of_nonneg_left ?_ (pow_nonneg (by linarith) _)
      have : 0 ≤ ε * l.sum := mul_nonneg h0 hs
      nlinarith [he.1]
    · refine le_trans i2 ?_
      rw [mul_assoc]
      refine mul_le_mul_of_nonneg_left ?_ (pow_nonneg (by linarith) _)
      have : 0 ≤ ε * l.sum := mul_nonneg h0 hs
      nlinarith [he.2]

end FloatFormat

/-! ## Paths without repetition -/

omit [DecidableEq V] [DecidableEq E] in
theorem IsPath.cut {g : GraphI V E} {u w v : V} {p : List E} (h : IsPath g w p v) (hu : u ∈ w :: p.map g.target) :
    ∃ b, b.Sublist p ∧ IsPath g u b v ∧ (u :: b.map g.target).Sublist (w :: p.map g.target) := by
  induction h with
  | nil w =>
    simp only [List.map_nil, List.mem_cons, List.not_mem_nil, or_false] at hu
    subst hu
    exact ⟨[], List.Sublist.refl _, .nil _, List.Sublist.refl _⟩
  | @cons w v e p he hp ih =>
    rcases List.mem_cons.mp hu with rfl | hu
    · exact ⟨e :: p, List.Sublist.refl _, .cons he hp, List.Sublist.refl _⟩
    · obtain ⟨b, h1, h2, h3⟩ := ih hu
      exact ⟨b, h1.cons _, h2, h3.cons _⟩

omit [DecidableEq V] [DecidableEq E] in
/-- A path contains a path that meets no vertex twice. -/
theorem IsPath.simple {g : GraphI V E} {u v : V} {p : List E} (h : IsPath g u p v) :
    ∃ q, q.Sublist p ∧ IsPath g u q v ∧ (u :: q.map g.target).Nodup := by
  induction h with
  | nil u => exact ⟨[], List.Sublist.refl _, .nil _, by simp⟩
  | @cons u v e p he hp ih =>
    obtain ⟨q, h1, h2, h3⟩ := ih
    by_cases hu : u ∈ g.target e :: q.map g.target
    · obtain ⟨b, h4, h5, h6⟩ := h2.cut hu
      exact ⟨b, (h4.trans h1).cons _, h5, h3.sublist h6⟩
    · exact ⟨e :: q, h1.cons_cons _, .cons he h2, List.nodup_cons.mpr ⟨hu, h3⟩⟩

omit [DecidableEq V] [DecidableEq E] in
theorem IsPath.short {g : GraphI V E} (hg : g.Closed) {u v : V} {p : List E} (h : IsPath g u p v) (hu : u ∈ g.vertices) :
    ∃ q, q.Sublist p ∧ IsPath g u q v ∧ q.length ≤ g.vertices.length - 1 := by
  obtain ⟨q, h1, h2, h3⟩ := h.simple
  refine ⟨q, h1, h2, ?_⟩
  have hsub : ∀ {u v : V} {q : List E}, IsPath g u q v → u ∈ g.vertices → ∀ x ∈ u :: q.map g.target, x ∈ g.vertices := by
    intro u v q hq
    induction hq with
    | nil => intro hu x hx; simp only [List.map_nil, List.mem_cons, List.not_mem_nil, or_false] at hx; exact hx ▸ hu
    | cons he _ ih =>
      intro hu x hx
      rcases List.mem_cons.mp hx with rfl | hx
      · exact hu
      · exact ih (hg _ hu _ he) x hx
  have := (List.subperm_of_subset h3 (hsub h2 hu)).length_le
  simp only [List.length_cons, List.length_map] at this
  omega

namespace FloatFormat

/-! ## Formats with `p` significant bits -/

theorem exists_nearest (C : Nat) (hC : 0 < C) (mem : Rat → Prop) (h0 : mem 0) (hm : ∀ x, mem x → ∃ k : Int, x * C = k) (x : Rat) :
    ∃ f, mem f ∧ ∀ f', mem f' → |f - x| ≤ |f' - x| := by
  have hden : (0 : Rat) < x.den := by exact_mod_cast x.den_pos
  have hc : (0 : Rat) < C * x.den := mul_pos (by exact_mod_cast hC) hden
  have hint : ∀ f, mem f → ∃ n : Nat, |f - x| * (C * x.den) = n := by
    intro f hf
    obtain ⟨k, hk⟩ := hm f hf
    refine ⟨(k * x.den - x.num * C).natAbs, ?_⟩
    rw [Nat.cast_natAbs]
    push_cast
    rw [← abs_of_pos hc, ← abs_mul]
    congr 1
    have : x * x.den = x.num := Rat.mul_den_eq_num x
    rw [← hk, ← this]
    ring
  have hex : ∃ n : Nat, ∃ f, mem f ∧ |f - x| * (C * x.den) = n := by
    obtain ⟨n, hn⟩ := hint 0 h0
    exact ⟨n, 0, h0, hn⟩
  classical
  obtain ⟨f, hf, hn⟩ := Nat.find_spec hex
  refine ⟨f, hf, fun f' hf' => ?_⟩
  obtain ⟨n', hn'⟩ := hint f' hf'
  have := Nat.find_min' hex ⟨f', hf', hn'⟩
  have h2 : |f - x| * (C * x.den) ≤ |f' - x| * (C * x.den) := by
    rw [hn, hn']; exact_mod_cast this
  exact le_of_mul_le_mul_right h2 hc

theorem bits_int {p q : Nat} {x : Rat} (h : Bits p q x) : ∃ k : Int, x * 2 ^ q = k := by
  obtain ⟨m, e, _, h⟩ := h
  exact ⟨m * 2 ^ e, by rw [h]; push_cast; rfl⟩

/-- There is such a format. -/
theorem exists_format (p q : Nat) : ∃ F : FloatFormat, ∀ x, F.mem x ↔ Bits p q x := by
  have h0 : Bits p q 0 := ⟨0, 0, by simp, by simp⟩
  have h : ∀ x, ∃ f, Bits p q f ∧ ∀ f', Bits p q f' → |f - x| ≤ |f' - x| :=
    exists_nearest (2 ^ q) (Nat.two_pow_pos q) (Bits p q) h0 fun x hx => by
      obtain ⟨k, hk⟩ := bits_int hx
      exact ⟨k, by rw [← hk]; push_cast; rfl⟩
  choose f h1 h2 using h
  exact ⟨⟨Bits p q, f, h0, h1, fun x => h2 x⟩, fun _ => Iff.rfl⟩

/-- A natural number is near to a number with `p` significant bits. -/
theorem near_nat (p : Nat) (hp : 1 ≤ p) (K : Nat) : ∃ (m e d : Nat), m < 2 ^ p ∧ (m * 2 ^ e + d = K ∨ K + d = m * 2 ^ e) ∧ d * 2 ^ p ≤ K := by
  by_cases hK : K < 2 ^ p
  · exact ⟨K, 0, 0, hK, .inl (by simp), by simp⟩
  · have hK : 2 ^ p ≤ K := Nat.le_of_not_lt hK
    have hne : K ≠ 0 := by have := Nat.two_pow_pos p; omega
    have h1 : 2 ^ K.log2 ≤ K := Nat.log2_self_le hne
    have h2 : K < 2 ^ (K.log2 + 1) := Nat.lt_log2_self
    have h3 : p ≤ K.log2 := (Nat.le_log2 hne).mpr hK
    obtain ⟨j, hj⟩ : ∃ j, K.log2 = p + j := ⟨K.log2 - p, by omega⟩
    rw [hj] at h1 h2
    have hu : 0 < 2 ^ (j + 1) := Nat.two_pow_pos _
    have hdm := Nat.div_add_mod K (2 ^ (j + 1))
    have hlt := Nat.mod_lt K hu
    have hq : K / 2 ^ (j + 1) < 2 ^ p := by
      rw [Nat.div_lt_iff_lt_mul hu, ← Nat.pow_add]
      calc K < 2 ^ (p + j + 1) := h2
        _ = 2 ^ (p + (j + 1)) := by congr 1
    have hj2 : 2 ^ (j + 1) = 2 * 2 ^ j := by rw [Nat.pow_succ]; ring
    have hd : 2 ^ j * 2 ^ p ≤ K := by rw [← Nat.pow_add, Nat.add_comm]; exact h1
    by_cases hr : K % 2 ^ (j + 1) ≤ 2 ^ j
    · refine ⟨K / 2 ^ (j + 1), j + 1, K % 2 ^ (j + 1), hq, .inl ?_, le_trans (Nat.mul_le_mul_right _ hr) hd⟩
      rw [Nat.mul_comm]; exact hdm
    · have hd' : 2 ^ (j + 1) - K % 2 ^ (j + 1) ≤ 2 ^ j := by omega
      have hsum : K + (2 ^ (j + 1) - K % 2 ^ (j + 1)) = (K / 2 ^ (j + 1) + 1) * 2 ^ (j + 1) := by
        rw [Nat.add_mul, Nat.one_mul, Nat.mul_comm (K / 2 ^ (j + 1))]
        omega
      by_cases hq' : K / 2 ^ (j + 1) + 1 < 2 ^ p
      · exact ⟨K / 2 ^ (j + 1) + 1, j + 1, 2 ^ (j + 1) - K % 2 ^ (j + 1), hq', .inr hsum, le_trans (Nat.mul_le_mul_right _ hd') hd⟩
      · obtain ⟨p', rfl⟩ : ∃ p', p = p' + 1 := ⟨p - 1, by omega⟩
        have he : K / 2 ^ (j + 1) + 1 = 2 ^ (p' + 1) := by omega
        refine ⟨2 ^ p', j + 2, 2 ^ (j + 1) - K % 2 ^ (j + 1), ?_, .inr ?_, le_trans (Nat.mul_le_mul_right _ hd') hd⟩
        · rw [Nat.pow_succ]; have := Nat.two_pow_pos p'; omega
        · rw [hsum, he, ← Nat.pow_add, ← Nat.pow_add]; congr 1; omega

/-- The relative error of an addition in a format with `p` significant bits. -/
theorem precise_bits {F : FloatFormat} {p q : Nat} (hp : 1 ≤ p) (hF : ∀ x, F.mem x ↔ Bits p q x) : F.Precise (1 / 2 ^ p) := by
  intro a b ha hb ha0 hb0
  obtain ⟨k1, e1⟩ := bits_int ((hF a).mp ha)
  obtain ⟨k2, e2⟩ := bits_int ((hF b).mp hb)
  have hq : (0 : Rat) < 2 ^ q := pow_pos (by norm_num) q
  have hpp : (0 : Rat) < 2 ^ p := pow_pos (by norm_num) p
  have hK : (a + b) * 2 ^ q = ((k1 + k2 : Int) : Rat) := by push_cast; rw [add_mul, e1, e2]
  have hK0 : 0 ≤ k1 + k2 := by
    have : (0 : Rat) ≤ ((k1 + k2 : Int) : Rat) := by rw [← hK]; exact mul_nonneg (by linarith) (le_of_lt hq)
    exact_mod_cast this
  obtain ⟨K, hKn⟩ := Int.eq_ofNat_of_zero_le hK0
  rw [hKn] at hK
  obtain ⟨m, e, d, hm, hd, hdp⟩ := near_nat p hp K
  have hmem : F.mem ((m : Rat) * 2 ^ e / 2 ^ q) := by
    rw [hF]
    refine ⟨m, e, ?_, ?_⟩
    · rw [abs_of_nonneg (by omega)]; exact_mod_cast hm
    · rw [div_mul_cancel₀ _ (ne_of_gt hq)]; push_cast; rfl
  refine le_trans (F.nearest (a + b) _ hmem) ?_
  have hab : a + b = (K : Rat) / 2 ^ q := by rw [eq_div_iff (ne_of_gt hq), hK]; push_cast; rfl
  rw [hab, ← sub_div, abs_div, abs_of_pos hq, ← mul_div_assoc]
  refine div_le_div_of_nonneg_right ?_ (le_of_lt hq)
  have hdr : (d : Rat) * 2 ^ p ≤ K := by exact_mod_cast hdp
  have hdd : (d : Rat) ≤ 1 / 2 ^ p * K := by
    rw [one_div, inv_mul_eq_div, le_div_iff₀ hpp]; exact hdr
  refine le_trans (le_of_eq ?_) hdd
  rcases hd with hd | hd
  · have : (m : Rat) * 2 ^ e + d = K := by exact_mod_cast hd
    rw [← this, show (m : Rat) * 2 ^ e - (m * 2 ^ e + d) = -d by ring, abs_neg, abs_of_nonneg (by positivity)]
  · have : (K : Rat) + d = m * 2 ^ e := by exact_mod_cast hd
    rw [← this, show (K : Rat) + d - K = d by ring, abs_of_nonneg (by positivity)]

/-- Small numbers are lost: `2^(p+1) + 1` is rounded to `2^(p+1)`. -/
theorem absorbed {F : FloatFormat} {p q : Nat} (hp : 1 ≤ p) (hF : ∀ x, F.mem x ↔ Bits p q x) : F.mem (2 ^ (p + 1)) ∧ F.mem 1 ∧ F.rnd (2 ^ (p + 1) + 1) = 2 ^ (p + 1) := by
  have h1p : (1 : Int) < 2 ^ p := by
    obtain ⟨p', rfl⟩ : ∃ p', p = p' + 1 := ⟨p - 1, by omega⟩
    rw [pow_succ]
    have : (0 : Int) < 2 ^ p' := pow_pos (by norm_num) p'
    omega
  have hb : Bits p q (2 ^ (p + 1)) := ⟨1, p + 1 + q, by simpa using h1p, by rw [pow_add 2 (p + 1) q]; push_cast; ring⟩
  have h1 : Bits p q 1 := ⟨1, q, by simpa using h1p, by push_cast; ring⟩
  refine ⟨(hF _).mpr hb, (hF _).mpr h1, ?_⟩
  have hn := F.nearest (2 ^ (p + 1) + 1) _ ((hF _).mpr hb)
  rw [show (2 : Rat) ^ (p + 1) - (2 ^ (p + 1) + 1) = -1 by ring, abs_neg, abs_one, abs_le] at hn
  obtain ⟨m, e, hm, he⟩ := (hF _).mp (F.mem_rnd (2 ^ (p + 1) + 1))
  generalize F.rnd (2 ^ (p + 1) + 1) = r at *
  have hq : (0 : Rat) < 2 ^ q := pow_pos (by norm_num) q
  have hge : (2 : Rat) ^ (p + 1) ≤ r := by linarith [hn.1]
  have hle : r ≤ 2 ^ (p + 1) + 2 := by linarith [hn.2]
  have hqe : q + 2 ≤ e := by
    by_contra hc
    have h2 : (2 : Rat) ^ (p + 1) * 2 ^ q ≤ m * 2 ^ e := by rw [← he]; exact mul_le_mul_of_nonneg_right hge (le_of_lt hq)
    have hmr : (m : Rat) < 2 ^ p := by
      have := lt_of_le_of_lt (le_abs_self m) hm
      exact_mod_cast this
    have hel : (2 : Rat) ^ e ≤ 2 ^ (q + 1) := pow_le_pow_right₀ (by norm_num) (by omega)
    have hep : (0 : Rat) < 2 ^ e := pow_pos (by norm_num) e
    have h3 : (m : Rat) * 2 ^ e < 2 ^ p * 2 ^ e := mul_lt_mul_of_pos_right hmr hep
    have h4 : (2 : Rat) ^ p * 2 ^ e ≤ 2 ^ p * 2 ^ (q + 1) := mul_le_mul_of_nonneg_left hel (by positivity)
    have h5 : (2 : Rat) ^ (p + 1) * 2 ^ q = 2 ^ p * 2 ^ (q + 1) := by ring
    linarith
  obtain ⟨j, rfl⟩ : ∃ j, e = q + 2 + j := ⟨e - (q + 2), by omega⟩
  have hr : r = ((m * 2 ^ j * 4 : Int) : Rat) := by
    have : r * 2 ^ q = ((m * 2 ^ j * 4 : Int) : Rat) * 2 ^ q := by rw [he]; push_cast; ring
    exact mul_right_cancel₀ (ne_of_gt hq) this
  obtain ⟨p', rfl⟩ : ∃ p', p = p' + 1 := ⟨p - 1, by omega⟩
  have hP : (2 : Rat) ^ (p' + 1 + 1) = ((2 ^ p' * 4 : Int) : Rat) := by push_cast; ring
  rw [hr, hP] at hge hle
  rw [hr, hP]
  have a1 : (2 ^ p' * 4 : Int) ≤ m * 2 ^ j * 4 := by exact_mod_cast hge
  have a2 : (m * 2 ^ j * 4 : Int) ≤ 2 ^ p' * 4 + 2 := by exact_mod_cast hle
  have : (m * 2 ^ j * 4 : Int) = 2 ^ p' * 4 := by omega
  rw [this]

end FloatFormat
end PyBGL
