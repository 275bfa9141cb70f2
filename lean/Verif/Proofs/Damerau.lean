import Verif.Proofs.Distance

/-!
# The triangle inequality of `damerau_levenshtein_distance`, up to one of the two terms
-/

namespace PyBGL
variable {A : Type}

/-- One insertion, deletion, substitution or transposition of adjacent symbols somewhere in a word. -/
inductive DStep : List A → List A → Prop
  | ins (c : A) (x : List A) : DStep x (c :: x)
  | del (c : A) (x : List A) : DStep (c :: x) x
  | sub (a b : A) (x : List A) : DStep (a :: x) (b :: x)
  | swap (a b : A) (x : List A) : DStep (a :: b :: x) (b :: a :: x)
  | cons (a : A) {x y : List A} (h : DStep x y) : DStep (a :: x) (a :: y)

/-- An alignment of cost at most `n`. -/
def AlignLe (n : Nat) (x y : List A) : Prop := ∃ k ≤ n, Align True True k x y

theorem AlignLe.mono {n m : Nat} {x y : List A} (h : AlignLe n x y) (hnm : n ≤ m) : AlignLe m x y := by
  obtain ⟨k, hk, h⟩ := h; exact ⟨k, by omega, h⟩

theorem AlignLe.keep {n : Nat} {x y : List A} (a : A) (h : AlignLe n x y) : AlignLe n (a :: x) (a :: y) := by
  obtain ⟨k, hk, h⟩ := h; exact ⟨k, hk, .keep a h⟩

theorem AlignLe.del {n : Nat} {x y : List A} (a : A) (h : AlignLe n x y) : AlignLe (n + 1) (a :: x) y := by
  obtain ⟨k, hk, h⟩ := h; exact ⟨k + 1, by omega, .del a h⟩

theorem AlignLe.ins {n : Nat} {x y : List A} (b : A) (h : AlignLe n x y) : AlignLe (n + 1) x (b :: y) := by
  obtain ⟨k, hk, h⟩ := h; exact ⟨k + 1, by omega, .ins b h⟩

theorem AlignLe.subst {n : Nat} {x y : List A} (a b : A) (h : AlignLe n x y) : AlignLe (n + 1) (a :: x) (b :: y) := by
  obtain ⟨k, hk, h⟩ := h; exact ⟨k + 1, by omega, .subst trivial a b h⟩

theorem AlignLe.swap {n : Nat} {x y : List A} (a b : A) (h : AlignLe n x y) : AlignLe (n + 1) (a :: b :: x) (b :: a :: y) := by
  obtain ⟨k, hk, h⟩ := h; exact ⟨k + 1, by omega, .transpose trivial a b h⟩

theorem AlignLe.of {n : Nat} {x y : List A} (h : Align True True n x y) : AlignLe n x y := ⟨n, Nat.le_refl _, h⟩

/-- Removing the first symbol costs at most 1. -/
theorem AlignLe.dropHead {n : Nat} {a : A} {x y : List A} (h : Align True True n (a :: x) y) : AlignLe (n + 1) x y := by
  generalize hw : a :: x = w at h
  induction h generalizing a x with
  | nil => cases hw
  | keep b h => cases hw; exact (AlignLe.of h).ins _
  | del b h => cases hw; exact (AlignLe.of h).mono (by omega)
  | ins b h ih => exact (ih hw).ins b
  | subst _ b c h => cases hw; exact ((AlignLe.of h).ins c).mono (by omega)
  | transpose _ b c h => cases hw; exact (((AlignLe.of h).ins b).keep c).mono (by omega)

/-- Changing the first symbol costs at most 1. -/
theorem AlignLe.changeHead {n : Nat} {a : A} (b : A) {x y : List A} (h : Align True True n (a :: x) y) : AlignLe (n + 1) (b :: x) y := by
  generalize hw : a :: x = w at h
  induction h generalizing a x with
  | nil => cases hw
  | keep c h => cases hw; exact (AlignLe.of h).subst _ _
  | del c h => cases hw; exact ((AlignLe.of h).del b).mono (by omega)
  | ins c h ih => exact (ih hw).ins c
  | subst _ c d h => cases hw; exact ((AlignLe.of h).subst b d).mono (by omega)
  | transpose _ c d h => cases hw; exact (((AlignLe.of h).ins c).keep d).del b

/-- One edit operation changes the cost of an alignment by at most 2. -/
theorem AlignLe.step {n : Nat} {x y : List A} (h : Align True True n x y) : ∀ {x' : List A}, DStep x x' → AlignLe (n + 2) x' y := by
  induction h with
  | nil =>
    intro x' s
    cases s with
    | ins c => exact ((AlignLe.of .nil).del c).mono (by omega)
  | @keep n x y a h ih =>
    intro x' s
    cases s with
    | ins c => exact (((AlignLe.of h).keep a).del c).mono (by omega)
    | del => exact ((AlignLe.of h).ins a).mono (by omega)
    | sub _ b => exact ((AlignLe.of h).subst b a).mono (by omega)
    | swap _ b => exact ((AlignLe.dropHead h).keep a).del b
    | cons _ s => exact (ih s).keep a
  | @del n x y a h ih =>
    intro x' s
    cases s with
    | ins c => exact (((AlignLe.of h).del a).del c).mono (by omega)
    | del => exact (AlignLe.of h).mono (by omega)
    | sub _ b => exact ((AlignLe.of h).del b).mono (by omega)
    | swap _ b => exact ((AlignLe.dropHead h).del a).del b
    | cons _ s => exact ((ih s).del a).mono (by omega)
  | @ins n x y b h ih => exact fun s => ((ih s).ins b).mono (by omega)
  | @subst n x y _ a b h ih =>
    intro x' s
    cases s with
    | ins c => exact (((AlignLe.of h).subst a b).del c).mono (by omega)
    | del => exact ((AlignLe.of h).ins b).mono (by omega)
    | sub _ c => exact ((AlignLe.of h).subst c b).mono (by omega)
    | swap _ c => exact ((AlignLe.changeHead a h).subst c b).mono (by omega)
    | cons _ s => exact ((ih s).subst a b).mono (by omega)
  | @transpose n x y _ a b h ih =>
    intro x' s
    cases s with
    | ins c => exact (((AlignLe.of h).swap a b).del c).mono (by omega)
    | del => exact (((AlignLe.of h).ins a).keep b).mono (by omega)
    | sub _ c => exact ((((AlignLe.of h).ins a).keep b).del c).mono (by omega)
    | swap => exact (((AlignLe.of h).keep a).keep b).mono (by omega)
    | cons _ s =>
      cases s with
      | ins c => exact ((((AlignLe.of h).ins a).keep b).del c).del a
      | del => exact (((AlignLe.of h).keep a).ins b).mono (by omega)
      | sub _ c => exact (((AlignLe.of h).subst c a).subst a b).mono (by omega)
      | swap _ c => exact (((AlignLe.changeHead b h).subst c a).subst a b).mono (by omega)
      | cons _ s => exact ((ih s).swap a b).mono (by omega)

theorem DStep.steps_cons {n : Nat} {x y : List A} (a : A) (h : Steps DStep n x y) : Steps DStep n (a :: x) (a :: y) :=
  Steps.map (a :: ·) (fun _ _ s => .cons a s) h

/-- An alignment of cost `n` is a sequence of `n` operations. -/
theorem DStep.of_align {n : Nat} {x y : List A} (h : Align True True n x y) : Steps DStep n x y := by
  induction h with
  | nil => exact .refl _
  | keep a _ ih => exact steps_cons a ih
  | del a _ ih => exact Steps.head (.del a _) ih
  | ins b _ ih => exact .tail ih (.ins b _)
  | subst _ a b _ ih => exact Steps.head (.sub a b _) (steps_cons b ih)
  | transpose _ a b _ ih => exact Steps.head (.swap a b _) (steps_cons b (steps_cons a ih))

theorem AlignLe.steps {m : Nat} {x x' : List A} (h : Steps DStep m x x') {n : Nat} {y : List A} (ha : AlignLe n x y) :
    AlignLe (n + 2 * m) x' y := by
  induction h with
  | refl => exact ha
  | tail _ s ih =>
    obtain ⟨k, hk, h⟩ := ih ha
    exact (AlignLe.step h s).mono (by omega)

/-- `d(x, z) ≤ 2 d(x, y) + d(y, z)`. -/
theorem damerau_triangle_left [DecidableEq A] (x y z : List A) :
    damerauLevenshteinDistance x z ≤ 2 * damerauLevenshteinDistance x y + damerauLevenshteinDistance y z := by
  obtain ⟨k, hk, h⟩ := AlignLe.steps (DStep.of_align (opt_damerau x y).symm.1) (AlignLe.of (opt_damerau y z).1)
  have := (opt_damerau x z).2 _ h
  omega

end PyBGL
