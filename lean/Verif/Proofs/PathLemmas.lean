import Verif.Spec.Path
import Verif.Proofs.PyLemmas

namespace PyBGL
variable {V E : Type} {g : GraphI V E}

theorem IsPath.append {u v w : V} {p q : List E} (hp : IsPath g u p v) (hq : IsPath g v q w) :
    IsPath g u (p ++ q) w := by
  induction hp with
  | nil => simpa using hq
  | cons he _ ih => exact .cons he (ih hq)

theorem IsPath.snoc {u v : V} {p : List E} {e : E} (hp : IsPath g u p v) (he : e ∈ g.outEdges v) :
    IsPath g u (p ++ [e]) (g.target e) :=
  hp.append (.cons he (.nil _))

theorem isPath_append_iff {u w : V} {p q : List E} :
    IsPath g u (p ++ q) w ↔ ∃ v, IsPath g u p v ∧ IsPath g v q w := by
  constructor
  · intro h
    induction p generalizing u with
    | nil => exact ⟨u, .nil u, h⟩
    | cons e p ih =>
      cases h with
      | cons he ht =>
        obtain ⟨v, h1, h2⟩ := ih ht
        exact ⟨v, .cons he h1, h2⟩
  · rintro ⟨v, h1, h2⟩; exact h1.append h2

theorem Reach.refl (g : GraphI V E) (u : V) : Reach g u u := ⟨[], .nil u⟩

theorem Reach.trans {u v w : V} (h : Reach g u v) (h' : Reach g v w) : Reach g u w := by
  obtain ⟨p, hp⟩ := h
  obtain ⟨q, hq⟩ := h'
  exact ⟨_, hp.append hq⟩

theorem Reach.edge {u : V} {e : E} (he : e ∈ g.outEdges u) : Reach g u (g.target e) :=
  ⟨[e], .cons he (.nil _)⟩

theorem Reach.step {u v : V} {e : E} (h : Reach g u v) (he : e ∈ g.outEdges v) :
    Reach g u (g.target e) := h.trans (.edge he)

/-- A set closed under out-edges contains everything reachable from its members. -/
theorem Reach.closed {P : V → Prop} (hP : ∀ u, P u → ∀ e ∈ g.outEdges u, P (g.target e)) {u v : V}
    (h : Reach g u v) (hu : P u) : P v := by
  obtain ⟨p, hp⟩ := h
  induction hp with
  | nil => exact hu
  | cons he _ ih => exact ih (hP _ hu _ he)

end PyBGL
