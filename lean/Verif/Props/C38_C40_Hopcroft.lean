import Verif.Proofs.HopcroftBuild
import Verif.Props.C43_Prune

/-!
# C38, C39, C40: `hopcroft_minimize`
-/

namespace PyBGL
open Automaton Hopcroft
variable {A : Type} [DecidableEq A]

namespace Hopcroft

theorem agglomerate_spec {g : IAutomaton A} (hg : g.WF) {ord : HopcroftOrd A} (ho : ord.Valid) :
    ∃ r, Returns (hopcroftAgglomerate ord g) r ∧
      ((g.a.alphabet ≠ [] ∧ [] ∈ hopcroftInit g ∧ r = .error .typeError) ∨
        ((g.a.alphabet = [] ∨ [] ∉ hopcroftInit g) ∧ ∃ P, r = .ok P ∧ Result g (hopcroftInit g) P)) :=
  loop_spec hg ho (part_init hg)

/-- Without transitions the initial partition is returned. -/
theorem agglomerate_nil {g : IAutomaton A} {ord : HopcroftOrd A} (ho : ord.Valid) (ha : g.a.alphabet = []) {P : List Block}
    (h : Returns (hopcroftAgglomerate ord g) (.ok P)) : P = hopcroftInit g := by
  obtain ⟨N, hN⟩ := h
  have := loop_partial (hopcroftStep ord g) (fun s => s.1 = hopcroftInit g) (fun r => ∀ P, r = .ok P → P = hopcroftInit g)
    (by
      intro t s s' hs e
      unfold hopcroftStep at e
      have hal : ord.alphabet t g.a.alphabet = [] := by
        have := (ho.alphabet t g.a.alphabet).length_eq
        rw [ha] at this
        rw [ha]
        exact List.length_eq_zero_iff.mp this
      cases hp : ord.pop t s.2 with
      | nil => simp only [hp] at e; cases e
      | cons C rest => simp only [hp, hal, List.foldlM_nil] at e; cases e; exact hs)
    (by
      intro t s r hs e
      unfold hopcroftStep at e
      cases hp : ord.pop t s.2 with
      | nil => simp only [hp] at e; cases e; rintro P ⟨⟩; exact hs
      | cons C rest => simp only [hp] at e; split at e <;> cases e)
    (by rintro t s e hs _ P ⟨⟩)
    (s := (hopcroftInit g, hopcroftInit g)) rfl (hN N (Nat.le_refl _))
  exact this P rfl

theorem minimize_of_agglomerate {g : IAutomaton A} {ord : HopcroftOrd A} (hv : g.a.vertices ≠ []) {P : List Block}
    (h : Returns (hopcroftAgglomerate ord g) (.ok P)) : Returns (hopcroftMinimize ord g) (hopcroftBuild ord g (ord.result 0 P)) := by
  obtain ⟨N, hN⟩ := h
  exact ⟨N, fun fuel hf => by unfold hopcroftMinimize; rw [if_neg hv, hN fuel hf]⟩

theorem minimize_of_error {g : IAutomaton A} {ord : HopcroftOrd A} (hv : g.a.vertices ≠ []) {e : PyErr}
    (h : Returns (hopcroftAgglomerate ord g) (.error e)) : Returns (hopcroftMinimize ord g) (.error e) := by
  obtain ⟨N, hN⟩ := h
  exact ⟨N, fun fuel hf => by unfold hopcroftMinimize; rw [if_neg hv, hN fuel hf]⟩

theorem build_no_init {g : IAutomaton A} {ord : HopcroftOrd A} (ho : ord.Valid) {P : List Block} (hP : Part g.a.vertices P)
    (h : ∀ q, g.a.q0 = some q → q ∉ g.a.vertices) : hopcroftBuild ord g (ord.result 0 P) = .error .assertionError := by
  unfold hopcroftBuild
  have : (ord.result 0 P).findIdx? (fun qs => qs.any g.a.isInitial) = none := by
    rw [List.findIdx?_eq_none_iff]
    intro B hB
    rw [List.any_eq_false]
    intro q hq hi
    have : g.a.q0 = some q := by simpa [isInitial, eq_comm] using hi
    exact h q this ((hP.sub B ((ho.result 0 P).mem_iff.mp hB)).subset hq)
  rw [this]

theorem Quotient.lang {g : IAutomaton A} (hg : g.WF) {P : List Block} (hP : Part g.a.vertices P) {m : IAutomaton A} {l : List Block}
    (h : Quotient g P m l) {q0 : Nat} (hq : g.a.q0 = some q0) (w : List A) : m.a.Lang w ↔ g.a.Lang w := by
  obtain ⟨B0, hB0, hqB⟩ := h.start q0 hq
  have hmem : B0 ∈ l := List.mem_of_getElem? hB0
  have hnd : l.Nodup := h.perm.nodup_iff.mpr hP.nodup
  have hidx : l.idxOf B0 = 0 := by
    cases hl : l with
    | nil => rw [hl] at hB0; simp at hB0
    | cons x xs => rw [hl] at hB0; simp at hB0; simp [hB0]
  unfold Lang
  constructor
  · rintro ⟨q, f, hq', hp, hf⟩
    rw [h.init] at hq'; cases hq'
    rw [← deltaWord_iff h.wf.out, ← hidx] at hp
    obtain ⟨r, C, hC, h1, h2, rfl⟩ := (h.deltaWord hg hP w hmem hqB f).mp hp
    exact ⟨q0, r, hq, (deltaWord_iff hg.out).mp h1, by rw [← h.fin C hC r h2, hf]⟩
  · rintro ⟨q, f, hq', hp, hf⟩
    rw [hq] at hq'; cases hq'
    rw [← deltaWord_iff hg.out] at hp
    have hfv : f ∈ g.a.vertices := by
      rcases hg.lpath_mem ((deltaWord_iff hg.out).mp hp) with rfl | h'
      · exact (hP.sub B0 (h.perm.mem_iff.mp hmem)).subset hqB
      · exact h'
    obtain ⟨C, hC, hfC⟩ := hP.cover f hfv
    have hC := h.perm.mem_iff.mpr hC
    refine ⟨0, l.idxOf C, h.init, ?_, by rw [h.fin C hC f hfC, hf]⟩
    rw [← deltaWord_iff h.wf.out, ← hidx]
    exact (h.deltaWord hg hP w hmem hqB _).mpr ⟨f, C, hC, hp, hfC, rfl⟩

end Hopcroft

/-- The automaton has a final state, a non-final state, and its initial state is one of its states. -/
structure Mixed (g : Automaton A) : Prop where
  final : ∃ q ∈ g.vertices, g.isFinal q = true
  nonfinal : ∃ q ∈ g.vertices, g.isFinal q = false
  init : ∃ q0 ∈ g.vertices, g.q0 = some q0

theorem Mixed.not_nil {g : IAutomaton A} (h : Mixed g.a) : [] ∉ hopcroftInit g := by
  obtain ⟨⟨q, hq, hf⟩, ⟨r, hr, hf'⟩, _⟩ := h
  rw [nil_mem_init]
  rintro (k | k)
  · rw [k r hr] at hf'; cases hf'
  · rw [k q hq] at hf; cases hf

/-- **C38**: for every automaton whose in-edges are consistent (C13), and whatever the enumerations of the sets, `hopcroft_minimize(g)` ends; if it returns
an automaton, this automaton accepts exactly the words accepted by `g`; and it does return one when `g` has a final and a non-final state. -/
theorem C38_language {g : IAutomaton A} (h : IAutomaton.SafeHistory g) {ord : HopcroftOrd A} (ho : ord.Valid) :
    ∃ r, Returns (hopcroftMinimize ord g) r ∧ (∀ m, r = .ok m → ∀ w, m.a.accepts w = true ↔ g.a.accepts w = true) ∧
      (Mixed g.a → ∃ m, r = .ok m) := by
  have hg := h.wf
  by_cases hv : g.a.vertices = []
  · refine ⟨.ok g, ⟨0, fun fuel _ => by unfold hopcroftMinimize; rw [if_pos hv]⟩, ?_, ?_⟩
    · rintro m ⟨⟩ w; rfl
    · intro _; exact ⟨g, rfl⟩
  · obtain ⟨r, h1, h2⟩ := agglomerate_spec hg ho
    rcases h2 with ⟨_, hn, rfl⟩ | ⟨_, P, rfl, hR⟩
    · exact ⟨_, minimize_of_error hv h1, by rintro m ⟨⟩, fun hm => absurd hn hm.not_nil⟩
    · refine ⟨_, minimize_of_agglomerate hv h1, ?_⟩
      by_cases hi : ∃ q0 ∈ g.a.vertices, g.a.q0 = some q0
      · obtain ⟨q0, hq, hq0⟩ := hi
        obtain ⟨m, l, e, hQ⟩ := build_spec hg ho hR hq0 hq
        rw [e]
        refine ⟨?_, fun _ => ⟨m, rfl⟩⟩
        rintro _ ⟨⟩ w
        rw [accepts_iff hQ.wf.out, accepts_iff hg.out]
        exact hQ.lang hg hR.part hq0 w
      · rw [build_no_init ho hR.part (fun q hq hv => hi ⟨q, hv, hq⟩)]
        exact ⟨by rintro m ⟨⟩, fun hm => absurd hm.init hi⟩

/-- **C39** (aggregates): `hopcroft_agglomerate_states(g)` returns the classes of the states of `g` that no word distinguishes, without empty class. -/
theorem C39_classes {g : IAutomaton A} (h : IAutomaton.SafeHistory g) (hm : Mixed g.a) {ord : HopcroftOrd A} (ho : ord.Valid) :
    ∃ P, Returns (hopcroftAgglomerate ord g) (.ok P) ∧ P.Nodup ∧ (∀ B ∈ P, B ≠ [] ∧ ∀ q ∈ B, q ∈ g.a.vertices) ∧
      (∀ q ∈ g.a.vertices, ∃ B ∈ P, q ∈ B) ∧
      ∀ B ∈ P, ∀ q ∈ B, ∀ r ∈ g.a.vertices, r ∈ B ↔ g.a.Indist q r := by
  have hg := h.wf
  obtain ⟨r, h1, h2⟩ := agglomerate_spec hg ho
  rcases h2 with ⟨_, hn, _⟩ | ⟨_, P, rfl, hR⟩
  · exact absurd hn hm.not_nil
  · refine ⟨P, h1, hR.part.nodup, ?_, hR.part.cover, ?_⟩
    · intro B hB
      exact ⟨fun e => hm.not_nil (hR.nil (e ▸ hB)), fun q hq => (hR.part.sub B hB).subset hq⟩
    · intro B hB q hq r hr
      constructor
      · intro h; exact ((hR.mates_iff hg).mp ⟨B, hB, hq, h⟩).2.2
      · intro h
        obtain ⟨C, hC, k1, k2⟩ := (hR.mates_iff hg).mpr ⟨(hR.part.sub B hB).subset hq, hr, h⟩
        rw [hR.part.disj B hB C hC q hq k1]; exact k2

/-- **C39** (quotient): the automaton returned is the quotient of `g` by indistinguishability: a map from the states of `g` onto the states
`0, 1, …` of the result identifies exactly the indistinguishable states, and respects the initial state, the final states and the transitions. -/
theorem C39_quotient {g : IAutomaton A} (h : IAutomaton.SafeHistory g) (hm : Mixed g.a) {ord : HopcroftOrd A} (ho : ord.Valid) :
    ∃ m, Returns (hopcroftMinimize ord g) (.ok m) ∧ m.WF ∧ (∃ n, m.a.vertices = List.range n) ∧ ∃ φ : Nat → Nat,
      (∀ q ∈ g.a.vertices, φ q ∈ m.a.vertices) ∧ (∀ s ∈ m.a.vertices, ∃ q ∈ g.a.vertices, φ q = s) ∧
      (∀ p ∈ g.a.vertices, ∀ q ∈ g.a.vertices, φ p = φ q ↔ g.a.Indist p q) ∧
      m.a.q0 = g.a.q0.map φ ∧
      (∀ q ∈ g.a.vertices, m.a.isFinal (φ q) = g.a.isFinal q) ∧
      ∀ q ∈ g.a.vertices, ∀ a, m.a.delta (φ q) a = (g.a.delta q a).map φ := by
  have hg := h.wf
  obtain ⟨q0, hq0v, hq0⟩ := hm.init
  have hv : g.a.vertices ≠ [] := by intro e; rw [e] at hq0v; simp at hq0v
  obtain ⟨r, h1, h2⟩ := agglomerate_spec hg ho
  rcases h2 with ⟨_, hn, _⟩ | ⟨_, P, rfl, hR⟩
  · exact absurd hn hm.not_nil
  obtain ⟨m, l, e, hQ⟩ := build_spec hg ho hR hq0 hq0v
  have hnd : l.Nodup := hQ.perm.nodup_iff.mpr hR.part.nodup
  have hB : ∀ q ∈ g.a.vertices, blockOf l q ∈ l ∧ q ∈ blockOf l q := by
    intro q hq
    obtain ⟨B, hB, hqB⟩ := hR.part.cover q hq
    rw [blockOf_spec hR.part hQ.perm (hQ.perm.mem_iff.mpr hB) hqB]
    exact ⟨hQ.perm.mem_iff.mpr hB, hqB⟩
  refine ⟨m, by rw [← e]; exact minimize_of_agglomerate hv h1, hQ.wf, ⟨_, hQ.verts⟩, fun q => l.idxOf (blockOf l q), ?_, ?_, ?_, ?_, ?_, ?_⟩
  · intro q hq
    rw [hQ.verts, List.mem_range]
    exact List.idxOf_lt_length_of_mem (hB q hq).1
  · intro s hs
    rw [hQ.verts, List.mem_range] at hs
    have hmem : l[s] ∈ l := List.getElem_mem hs
    have hne : l[s] ≠ [] := fun e => hm.not_nil (hR.nil (hQ.perm.mem_iff.mp (e ▸ hmem)))
    obtain ⟨q, hq⟩ := List.exists_mem_of_ne_nil _ hne
    refine ⟨q, (hR.part.sub _ (hQ.perm.mem_iff.mp hmem)).subset hq, ?_⟩
    simp only
    rw [blockOf_spec hR.part hQ.perm hmem hq, hnd.idxOf_getElem]
  · intro p hp q hq
    simp only
    rw [List.idxOf_inj (hB p hp).1]
    constructor
    · intro he
      have := hB q hq
      exact ((hR.mates_iff hg).mp ⟨blockOf l p, hQ.perm.mem_iff.mp (hB p hp).1, (hB p hp).2, by rw [he]; exact this.2⟩).2.2
    · intro hi
      obtain ⟨B, hBP, k1, k2⟩ := (hR.mates_iff hg).mpr ⟨hp, hq, hi⟩
      rw [blockOf_spec hR.part hQ.perm (hQ.perm.mem_iff.mpr hBP) k1, blockOf_spec hR.part hQ.perm (hQ.perm.mem_iff.mpr hBP) k2]
  · obtain ⟨B0, hB0, hqB⟩ := hQ.start q0 hq0
    rw [hQ.init, hq0]
    simp only [Option.map_some, Option.some.injEq]
    rw [blockOf_spec hR.part hQ.perm (List.mem_of_getElem? hB0) hqB]
    cases hl : l with
    | nil => rw [hl] at hB0; simp at hB0
    | cons x xs => rw [hl] at hB0; simp at hB0; simp [hB0]
  · intro q hq
    exact hQ.fin _ (hB q hq).1 q (hB q hq).2
  · intro q hq a
    have key := hQ.delta _ (hB q hq).1 q (hB q hq).2 a
    cases hd : g.a.delta q a with
    | none =>
      simp only [Option.map_none]
      cases e' : m.a.delta (l.idxOf (blockOf l q)) a with
      | none => rfl
      | some j =>
        obtain ⟨r, _, _, k, _⟩ := (key j).mp e'
        rw [hd] at k; cases k
    | some r =>
      have hr := Hopcroft.target_mem hg hd
      exact (key _).mpr ⟨r, _, (hB r hr).1, hd, (hB r hr).2, rfl⟩

namespace Hopcroft

theorem card_le {α β : Type} {l : List α} (hl : l.Nodup) {k : List β} (R : α → β → Prop) (htot : ∀ x ∈ l, ∃ y ∈ k, R x y)
    (hinj : ∀ x ∈ l, ∀ x' ∈ l, ∀ y, R x y → R x' y → x = x') : l.length ≤ k.length := by
  induction l generalizing k with
  | nil => simp
  | cons x l ih =>
    classical
    obtain ⟨y, hy, hxy⟩ := htot x (by simp)
    rw [List.nodup_cons] at hl
    have := ih hl.2 (k := k.erase y) ?_ (fun u hu v hv => hinj u (by simp [hu]) v (by simp [hv]))
    · rw [List.length_erase_of_mem hy] at this
      have : 0 < k.length := List.length_pos_of_mem hy
      simp only [List.length_cons]; omega
    · intro u hu
      obtain ⟨z, hz, huz⟩ := htot u (by simp [hu])
      refine ⟨z, (List.mem_erase_of_ne ?_).mpr hz, huz⟩
      rintro rfl
      have := hinj x (by simp) u (by simp [hu]) z hxy huz
      exact hl.1 (this ▸ hu)

/-- The core of minimality. -/
theorem minimum {g : IAutomaton A} (h : IAutomaton.SafeHistory g) (hm : Mixed g.a) {ord : HopcroftOrd A} (ho : ord.Valid)
    {q0 : Nat} (hq0 : g.a.q0 = some q0)
    (hacc : ∀ q ∈ g.a.vertices, ∃ u, LPath g.a.Trans q0 u q)
    (hright : ∀ p ∈ g.a.vertices, ∀ q ∈ g.a.vertices, (∀ w, g.a.Right p w ↔ g.a.Right q w) → g.a.Indist p q)
    {k : Automaton A} (hk : AWF k) (S : List Nat)
    (hread : ∀ u q, q ∈ g.a.vertices → LPath g.a.Trans q0 u q → ∃ k0, k.q0 = some k0 ∧ ∃ r ∈ S, LPath k.Trans k0 u r)
    (hlang : ∀ w, k.Lang w ↔ g.a.Lang w) :
    ∃ m, Returns (hopcroftMinimize ord g) (.ok m) ∧ m.a.vertices.length ≤ S.length := by
  obtain ⟨m, h1, hw, ⟨n, hn⟩, φ, f1, f2, f3, _⟩ := C39_quotient h hm ho
  have hg := h.wf
  refine ⟨m, h1, ?_⟩
  refine card_le (by rw [hn]; exact List.nodup_range)
    (fun s r => ∃ q ∈ g.a.vertices, φ q = s ∧ ∃ u k0, k.q0 = some k0 ∧ LPath g.a.Trans q0 u q ∧ LPath k.Trans k0 u r) ?_ ?_
  · intro s hs
    obtain ⟨q, hq, rfl⟩ := f2 s hs
    obtain ⟨u, hu⟩ := hacc q hq
    obtain ⟨k0, e, r, hr, hp⟩ := hread u q hq hu
    exact ⟨r, hr, q, hq, rfl, u, k0, e, hu, hp⟩
  · rintro _ _ _ _ r ⟨q, hq, rfl, u, k0, e, hu, hp⟩ ⟨q', hq', rfl, u', k0', e', hu', hp'⟩
    rw [e] at e'; cases e'
    rw [f3 q hq q' hq']
    have key : ∀ {q u}, LPath g.a.Trans q0 u q → LPath k.Trans k0 u r → ∀ w, g.a.Right q w ↔ k.Right r w := by
      intro q u hu hp w
      have := hlang (u ++ w)
      unfold Lang at this
      unfold Right
      constructor
      · rintro ⟨f, hf, hfin⟩
        obtain ⟨k1, f', e1, hp1, hf1⟩ := this.mpr ⟨q0, f, hq0, hu.append hf, hfin⟩
        rw [e] at e1; cases e1
        rw [← deltaWord_iff hk] at hp1 hp
        rw [deltaWord_append, hp, deltaWord_iff hk] at hp1
        exact ⟨f', hp1, hf1⟩
      · rintro ⟨f, hf, hfin⟩
        obtain ⟨k1, f', e1, hp1, hf1⟩ := this.mp ⟨k0, f, e, hp.append hf, hfin⟩
        rw [hq0] at e1; cases e1
        rw [← deltaWord_iff hg.out] at hp1 hu
        rw [deltaWord_append, hu, deltaWord_iff hg.out] at hp1
        exact ⟨f', hp1, hf1⟩
    exact hright q hq q' hq' fun w => (key hu hp w).trans (key hu' hp' w).symm

end Hopcroft

/-- `C39_minimum_trim` for any rival whose dictionaries are sound. -/
theorem minimum_trim {g : IAutomaton A} (h : IAutomaton.SafeHistory g) (hm : Mixed g.a) {ord : HopcroftOrd A} (ho : ord.Valid)
    (htrim : ∀ q ∈ g.a.vertices, Useful g.a q) {k : Automaton A} (hk : AWF k) (hlang : ∀ w, k.Lang w ↔ g.a.Lang w)
    (S : List Nat) (hS : ∀ k0 u r, k.q0 = some k0 → LPath k.Trans k0 u r → r ∈ S) :
    ∃ m, Returns (hopcroftMinimize ord g) (.ok m) ∧ m.a.vertices.length ≤ S.length := by
  have hg := h.wf
  obtain ⟨q0, hq0v, hq0⟩ := hm.init
  refine Hopcroft.minimum h hm ho hq0 ?_ ?_ hk S ?_ hlang
  · intro q hq
    obtain ⟨_, ⟨q', w, e, hp⟩, _⟩ := htrim q hq
    rw [hq0] at e; cases e
    exact ⟨w, hp⟩
  · intro p hp q hq hpq w
    refine ⟨?_, hpq w⟩
    have key : ∀ p ∈ g.a.vertices, (∃ r, LPath g.a.Trans p w r) → ∃ v f, LPath g.a.Trans p (w ++ v) f ∧ g.a.isFinal f = true := by
      rintro p hp ⟨r, hr⟩
      have hrv : r ∈ g.a.vertices := by
        rcases hg.lpath_mem hr with rfl | h
        · exact hp
        · exact h
      obtain ⟨_, _, v, f, hv, hf⟩ := htrim r hrv
      exact ⟨v, f, hr.append hv, hf⟩
    have back : ∀ {p v f}, LPath g.a.Trans p (w ++ v) f → ∃ r, LPath g.a.Trans p w r := by
      intro p v f hpf
      rw [← deltaWord_iff hg.out, deltaWord_append] at hpf
      cases e : g.a.deltaWord (some p) w with
      | none => rw [e] at hpf; simp [deltaWord_none] at hpf
      | some r => exact ⟨r, (deltaWord_iff hg.out).mp e⟩
    constructor
    · intro hr
      obtain ⟨v, f, h1, h2⟩ := key p hp hr
      obtain ⟨f', h3, _⟩ := (hpq (w ++ v)).mp ⟨f, h1, h2⟩
      exact back h3
    · intro hr
      obtain ⟨v, f, h1, h2⟩ := key q hq hr
      obtain ⟨f', h3, _⟩ := (hpq (w ++ v)).mpr ⟨f, h1, h2⟩
      exact back h3
  · intro u q hq hu
    obtain ⟨_, _, v, f, hv, hf⟩ := htrim q hq
    obtain ⟨k0, f', e, hp, _⟩ := (hlang (u ++ v)).mpr ⟨q0, f, hq0, hu.append hv, hf⟩
    rw [← deltaWord_iff hk, deltaWord_append] at hp
    cases e' : k.deltaWord (some k0) u with
    | none => rw [e'] at hp; simp [deltaWord_none] at hp
    | some r =>
      have := (deltaWord_iff hk).mp e'
      exact ⟨k0, e, r, hS k0 u r e this, this⟩

/-- **C39** (minimality): when all the states of `g` are useful, no deterministic automaton accepting the same words has fewer states than the result: the
states that a rival `k` goes through when it reads words are at least as many. -/
theorem C39_minimum_trim {g : IAutomaton A} (h : IAutomaton.SafeHistory g) (hm : Mixed g.a) {ord : HopcroftOrd A} (ho : ord.Valid)
    (htrim : ∀ q ∈ g.a.vertices, Useful g.a q) {k : Automaton A} (hk : k.Reachable) (hlang : ∀ w, k.Lang w ↔ g.a.Lang w)
    (S : List Nat) (hS : ∀ k0 u r, k.q0 = some k0 → LPath k.Trans k0 u r → r ∈ S) :
    ∃ m, Returns (hopcroftMinimize ord g) (.ok m) ∧ m.a.vertices.length ≤ S.length :=
  minimum_trim h hm ho htrim hk.awf hlang S hS

/-- **C39** (minimality, complete automata): when `g` is complete and all its states can be reached from the initial state, no automaton accepting the
same words and complete over the same alphabet has fewer states than the result. -/
theorem C39_minimum_complete {g : IAutomaton A} (h : IAutomaton.SafeHistory g) (hm : Mixed g.a) {ord : HopcroftOrd A} (ho : ord.Valid)
    (hcomp : g.a.isComplete = true) {q0 : Nat} (hq0 : g.a.q0 = some q0)
    (hacc : ∀ q ∈ g.a.vertices, ∃ u, LPath g.a.Trans q0 u q)
    {k : IAutomaton A} (hk : IAutomaton.SafeHistory k) {k0 : Nat} (hk0 : k.a.q0 = some k0) (hk0v : k0 ∈ k.a.vertices)
    (hkc : ∀ r ∈ k.a.vertices, ∀ a ∈ g.a.alphabet, ∃ r', k.a.delta r a = some r') (hlang : ∀ w, k.a.Lang w ↔ g.a.Lang w) :
    ∃ m, Returns (hopcroftMinimize ord g) (.ok m) ∧ m.a.vertices.length ≤ k.a.vertices.length := by
  have hg := h.wf
  have hkw := hk.wf
  have hc : ∀ q ∈ g.a.vertices, ∀ a ∈ g.a.alphabet, ∃ r, g.a.delta q a = some r := by
    unfold isComplete sameSet at hcomp
    simp only [List.all_eq_true, Bool.and_eq_true, decide_eq_true_eq] at hcomp
    exact fun q hq a ha => mem_sigma.1 ((hcomp q hq).2 a ha)
  have halpha : ∀ {p w r}, LPath g.a.Trans p w r → ∀ a ∈ w, a ∈ g.a.alphabet := by
    intro p w r hp
    induction hp with
    | nil => simp
    | cons ht _ ih =>
      intro a ha
      rcases List.mem_cons.mp ha with rfl | ha
      · exact mem_alphabet'.mpr ⟨_, _, (trans_iff hg.out).mp ht⟩
      · exact ih a ha
  have hrun : ∀ (w : List A), (∀ a ∈ w, a ∈ g.a.alphabet) → ∀ p ∈ g.a.vertices, ∃ r, LPath g.a.Trans p w r := by
    intro w
    induction w with
    | nil => intro _ p _; exact ⟨p, .nil _⟩
    | cons a w ih =>
      intro hw p hp
      obtain ⟨r, hr⟩ := hc p hp a (hw a (by simp))
      obtain ⟨s, hs⟩ := ih (fun b hb => hw b (by simp [hb])) r (Hopcroft.target_mem hg hr)
      exact ⟨s, .cons ((trans_iff hg.out).mpr hr) hs⟩
  refine Hopcroft.minimum h hm ho hq0 hacc ?_ hkw.out k.a.vertices ?_ hlang
  · intro p hp q hq hpq w
    refine ⟨⟨?_, ?_⟩, hpq w⟩
    · rintro ⟨r, hr⟩; exact hrun w (halpha hr) q hq
    · rintro ⟨r, hr⟩; exact hrun w (halpha hr) p hp
  · intro u q _ hu
    have : ∀ (w : List A), (∀ a ∈ w, a ∈ g.a.alphabet) → ∀ p ∈ k.a.vertices, ∃ r ∈ k.a.vertices, LPath k.a.Trans p w r := by
      intro w
      induction w with
      | nil => intro _ p hp; exact ⟨p, hp, .nil _⟩
      | cons a w ih =>
        intro hw p hp
        obtain ⟨r, hr⟩ := hkc p hp a (hw a (by simp))
        obtain ⟨s, hs, hs'⟩ := ih (fun b hb => hw b (by simp [hb])) r (Hopcroft.target_mem hkw hr)
        exact ⟨s, hs, .cons ((trans_iff hkw.out).mpr hr) hs'⟩
    obtain ⟨r, hr, hp⟩ := this u (halpha hu) k0 hk0v
    exact ⟨k0, hk0, r, hr, hp⟩

/-! ## C40 -/

/-- The full statement of C40: `hopcroft_minimize` returns an automaton for every automaton with an initial state among its states, and every state of the
result stands for some state of the argument (there is no extra state). -/
def C40_statement : Prop :=
  ∀ (g : IAutomaton Char) (ord : HopcroftOrd Char), IAutomaton.SafeHistory g → ord.Valid → (∃ q0 ∈ g.a.vertices, g.a.q0 = some q0) →
    ∃ m, Returns (hopcroftMinimize ord g) (.ok m) ∧ m.a.vertices.length ≤ g.a.vertices.length

/-- What happens otherwise: if all the states, or none, are final, `hopcroft_minimize` raises `TypeError` as soon as there is a transition; without
transition, it returns two states, one of which stands for no state. -/
theorem C40_outcome_partial {g : IAutomaton A} (h : IAutomaton.SafeHistory g) (hi : ∃ q0 ∈ g.a.vertices, g.a.q0 = some q0)
    {ord : HopcroftOrd A} (ho : ord.Valid)
    (hall : (∀ q ∈ g.a.vertices, g.a.isFinal q = true) ∨ (∀ q ∈ g.a.vertices, g.a.isFinal q = false)) :
    (g.a.edges ≠ [] → Returns (hopcroftMinimize ord g) (.error .typeError)) ∧
    (g.a.edges = [] → ∃ m, Returns (hopcroftMinimize ord g) (.ok m) ∧ m.a.vertices = [0, 1] ∧ m.a.edges = []) := by
  have hg := h.wf
  obtain ⟨q0, hq, hq0⟩ := hi
  have hv : g.a.vertices ≠ [] := by intro e; rw [e] at hq; simp at hq
  have hal : g.a.alphabet = [] ↔ g.a.edges = [] := by
    rw [List.eq_nil_iff_forall_not_mem, List.eq_nil_iff_forall_not_mem]
    constructor
    · rintro h ⟨q, r, a⟩ he
      exact h a (mem_alphabet'.mpr ⟨q, r, (mem_edges hg.out).mp he⟩)
    · intro h a ha
      obtain ⟨p, r, e⟩ := mem_alphabet'.mp ha
      exact h ⟨p, r, a⟩ ((mem_edges hg.out).mpr e)
  obtain ⟨r, h1, h2⟩ := agglomerate_spec hg ho
  constructor
  · intro he
    rcases h2 with ⟨_, _, rfl⟩ | ⟨ha | ha, _⟩
    · exact minimize_of_error hv h1
    · exact absurd (hal.mp ha) he
    · exact absurd (nil_mem_init.mpr hall) ha
  · intro he
    rcases h2 with ⟨ha, _⟩ | ⟨_, P, rfl, hR⟩
    · exact absurd (hal.mpr he) ha
    · obtain ⟨m, l, e, hQ⟩ := build_spec hg ho hR hq0 hq
      have hP := agglomerate_nil ho (hal.mpr he) h1
      have hlen : l.length = 2 := by
        rw [hQ.perm.length_eq, hP]
        unfold hopcroftInit
        have hne : g.a.vertices.filter (fun q => g.a.isFinal q) ≠ g.a.vertices.filter (fun q => !g.a.isFinal q) := by
          intro e
          cases hf : g.a.isFinal q0 with
          | true =>
            have : q0 ∈ g.a.vertices.filter (fun q => g.a.isFinal q) := List.mem_filter.mpr ⟨hq, hf⟩
            rw [e, List.mem_filter] at this
            simp [hf] at this
          | false =>
            have : q0 ∈ g.a.vertices.filter (fun q => !g.a.isFinal q) := List.mem_filter.mpr ⟨hq, by simp [hf]⟩
            rw [← e, List.mem_filter] at this
            simp [hf] at this
        simp [mkSet, setAdd, hne, Ne.symm hne]
      refine ⟨m, by rw [← e]; exact minimize_of_agglomerate hv h1, by rw [hQ.verts, hlen]; rfl, ?_⟩
      rw [List.eq_nil_iff_forall_not_mem]
      rintro ⟨i, j, a⟩ hij
      rw [mem_edges hQ.wf.out] at hij
      simp only at hij
      have hi := delta_mem_vertices hij
      rw [hQ.verts, List.mem_range] at hi
      have hidx : l.idxOf l[i] = i := (hQ.perm.nodup_iff.mpr hR.part.nodup).idxOf_getElem i hi
      by_cases hn : l[i] = []
      · exact hQ.emp a j (by rw [← hn, hidx]; exact hij)
      · obtain ⟨x, hx⟩ := List.exists_mem_of_ne_nil _ hn
        rw [← hidx] at hij
        obtain ⟨r, _, _, k, _⟩ := (hQ.delta _ (List.getElem_mem hi) x hx a j).mp hij
        have : (⟨x, r, a⟩ : EdgeDesc A) ∈ g.a.edges := (mem_edges hg.out).mpr k
        rw [he] at this; simp at this

/-- **C40, partial** (missing: automata whose states are all final or all non-final, for which the claim is false): `hopcroft_minimize` returns an automaton
whose states all stand for states of the argument. -/
theorem C40_partial {g : IAutomaton A} (h : IAutomaton.SafeHistory g) (hm : Mixed g.a) {ord : HopcroftOrd A} (ho : ord.Valid) :
    ∃ m, Returns (hopcroftMinimize ord g) (.ok m) ∧ m.a.vertices.length ≤ g.a.vertices.length := by
  obtain ⟨m, h1, hw, _, φ, _, f2, _⟩ := C39_quotient h hm ho
  refine ⟨m, h1, Hopcroft.card_le hw.out.outer (fun s q => φ q = s) f2 ?_⟩
  rintro x _ x' _ y h h'
  rw [← h, ← h']

/-! ## Concrete cases -/

namespace Examples

def hopcroftId : HopcroftOrd Char := ⟨fun _ s => s, fun _ s => s, fun _ _ s => s, fun _ s => s, fun _ s => s⟩

theorem hopcroftId_valid : hopcroftId.Valid :=
  ⟨fun _ _ => .refl _, fun _ _ => .refl _, fun _ _ _ => .refl _, fun _ _ => .refl _, fun _ _ => .refl _⟩

/-- 0 -a-> 1, 0 -b-> 2, 1 -c-> 3, 2 -c-> 3, with 3 final: 1 and 2 are equivalent. -/
def diamondHistory : List (AOp Char) :=
  [.addVertex, .addVertex, .addVertex, .addVertex, .addEdge 0 1 'a', .addEdge 0 2 'b', .addEdge 1 3 'c', .addEdge 2 3 'c', .setFinal 3 true]

def diamond : IAutomaton Char :=
  ⟨⟨4, [(0, [('a', 1), ('b', 2)]), (1, [('c', 3)]), (2, [('c', 3)]), (3, [])], some 0, [(3, true)]⟩,
    [(0, []), (1, [(0, ['a'])]), (2, [(0, ['b'])]), (3, [(1, ['c']), (2, ['c'])])]⟩

theorem diamond_safe : IAutomaton.SafeHistory diamond := by
  refine .step (op := .setFinal 3 true) (.step (op := .addEdge 2 3 'c') (.step (op := .addEdge 1 3 'c') (.step (op := .addEdge 0 2 'b')
    (.step (op := .addEdge 0 1 'a') (.step (op := .addVertex) (.step (op := .addVertex) (.step (op := .addVertex) (.step (op := .addVertex) .new
      trivial rfl) trivial rfl) trivial rfl) trivial rfl) ?_ rfl) ?_ rfl) ?_ rfl) ?_ rfl) trivial rfl <;> simp [IAutomaton.Safe] <;> decide

theorem diamond_mixed : Mixed diamond.a := ⟨⟨3, by decide, rfl⟩, ⟨0, by decide, rfl⟩, ⟨0, by decide, rfl⟩⟩

example : (hopcroftMinimize hopcroftId diamond 20).bind (fun r => r.toOption.map fun m => (m.a.vertices, m.a.edges.length)) =
    some ([0, 1, 2], 3) := by decide

/-- All the states of `diamond` are useful, so that `C39_minimum_trim` applies to it (with itself as rival, for instance). -/
theorem diamond_useful : ∀ q ∈ diamond.a.vertices, Useful diamond.a q := by
  have t1 : diamond.a.Trans 0 'a' 1 := by unfold Automaton.Trans; decide
  have t2 : diamond.a.Trans 0 'b' 2 := by unfold Automaton.Trans; decide
  have t3 : diamond.a.Trans 1 'c' 3 := by unfold Automaton.Trans; decide
  have t4 : diamond.a.Trans 2 'c' 3 := by unfold Automaton.Trans; decide
  have hv : diamond.a.vertices = [0, 1, 2, 3] := rfl
  intro q hq
  have hq' := hq
  rw [hv] at hq'
  simp only [List.mem_cons, List.not_mem_nil, or_false] at hq'
  rcases hq' with rfl | rfl | rfl | rfl
  · exact ⟨hq, ⟨0, [], rfl, .nil _⟩, ['a', 'c'], 3, .cons t1 (.cons t3 (.nil _)), rfl⟩
  · exact ⟨hq, ⟨0, ['a'], rfl, .cons t1 (.nil _)⟩, ['c'], 3, .cons t3 (.nil _), rfl⟩
  · exact ⟨hq, ⟨0, ['b'], rfl, .cons t2 (.nil _)⟩, ['c'], 3, .cons t4 (.nil _), rfl⟩
  · exact ⟨hq, ⟨0, ['a', 'c'], rfl, .cons t1 (.cons t3 (.nil _))⟩, [], 3, .nil _, rfl⟩

/-- A complete automaton whose states can all be reached: 0 and 1 exchanged by `a`, with 1 final. -/
def flip : IAutomaton Char :=
  ⟨⟨2, [(0, [('a', 1)]), (1, [('a', 0)])], some 0, [(1, true)]⟩, [(0, [(1, ['a'])]), (1, [(0, ['a'])])]⟩

example : flip.a.isComplete = true ∧ (∀ q ∈ flip.a.vertices, ∃ u, LPath flip.a.Trans 0 u q) := by
  refine ⟨by decide, ?_⟩
  intro q hq
  have hv : flip.a.vertices = [0, 1] := rfl
  rw [hv] at hq
  simp only [List.mem_cons, List.not_mem_nil, or_false] at hq
  have t1 : flip.a.Trans 0 'a' 1 := by unfold Automaton.Trans; decide
  rcases hq with rfl | rfl
  · exact ⟨[], .nil _⟩
  · exact ⟨['a'], .cons t1 (.nil _)⟩

/-- One state, not final, with a loop. -/
def noFinal : IAutomaton Char := ⟨⟨1, [(0, [('a', 0)])], some 0, []⟩, [(0, [(0, ['a'])])]⟩

theorem noFinal_safe : IAutomaton.SafeHistory noFinal := by
  refine .step (op := .addEdge 0 0 'a') (.step (op := .addVertex) .new trivial rfl) ?_ rfl
  simp [IAutomaton.Safe]; decide

end Examples

open Examples in
/-- **C40 is false of the code**: an automaton with a transition and no final state makes `hopcroft_minimize` raise `TypeError`. -/
theorem C40_counterexample : ¬ C40_statement := by
  intro h
  obtain ⟨m, h1, _⟩ := h noFinal hopcroftId noFinal_safe hopcroftId_valid ⟨0, by decide, rfl⟩
  have h2 := (C40_outcome_partial noFinal_safe ⟨0, by decide, rfl⟩ hopcroftId_valid (.inr (by decide))).1 (by decide)
  have := returns_unique h1 h2
  cases this

end PyBGL
