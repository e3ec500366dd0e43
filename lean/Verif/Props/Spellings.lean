import Verif.Props.Discrete
import Verif.Props.Hold
import Verif.Props.DiscAttr

/-!
# C32, C65: the names of the discretization methods

The other theorems about `discretize` speak of a method "in the list of forward names". Here the lists are
written out, so that a spelling the documentation promises and the code forgets is noticed.
-/

namespace Harold

open Matrix Harold.Spec

section discretize
variable {P : Type} {N : Numerics ℝ P} {E : DNum} {G : StateObj ℝ P} {dt pw : ℝ} {method : String}
  {q : Option (Arr ℝ)} {n m p : ℕ} {A : Matrix (Fin n) (Fin n) ℝ} {B : Matrix (Fin n) (Fin m) ℝ}
  {C : Matrix (Fin p) (Fin n) ℝ} {D : Matrix (Fin p) (Fin m) ℝ}

/-- **C32** Every documented spelling selects its rule: the four names of the forward Euler rule, the four
names of the backward Euler rule and the two names of the bilinear rule give the matrices of that rule, and
the spelling is recorded in `DiscretizedWith`. -/
theorem C32_spellings (hG : G.g = ⟨Arr.of A, Arr.of B, Arr.of C, Arr.of D, none, false⟩) (hdt : 0 < dt) :
    (∀ method ∈ ["forward euler", "forward difference", "forward rectangular", ">>"],
      ∃ S, discretize N E G dt method pw q = .ok S ∧ S.discWith = some method ∧
        S.g = ⟨Arr.of (1 + dt • A), Arr.of (√dt • B), Arr.of (√dt • C), Arr.of D, some dt, false⟩) ∧
    ((1 - dt • A).det ≠ 0 → ∀ method ∈ ["backward euler", "backward difference", "backward rectangular", "<<"],
      ∃ S, discretize N E G dt method pw q = .ok S ∧ S.discWith = some method ∧
        S.g = ⟨Arr.of (1 + dt • (A * (1 - dt • A)⁻¹)), Arr.of (√dt • ((1 - dt • A)⁻¹ * B)),
          Arr.of (√dt • (C * (1 - dt • A)⁻¹)), Arr.of (D + dt • (C * (1 - dt • A)⁻¹ * B)), some dt, false⟩) ∧
    ((1 - (dt / 2) • A).det ≠ 0 → ∀ method ∈ ["tustin", "bilinear"],
      ∃ S, discretize N E G dt method 0 q = .ok S ∧ S.discWith = some method ∧
        S.g = ⟨Arr.of (1 + dt • (A * (1 - (dt / 2) • A)⁻¹)), Arr.of (√dt • ((1 - (dt / 2) • A)⁻¹ * B)),
          Arr.of (√dt • (C * (1 - (dt / 2) • A)⁻¹)), Arr.of (D + (dt / 2) • (C * (1 - (dt / 2) • A)⁻¹ * B)),
          some dt, false⟩) := by
  have hsq : √dt * √dt = dt := Real.mul_self_sqrt hdt.le
  refine ⟨fun method hm => ?_, fun h0 method hm => ?_, fun h0 method hm => ?_⟩
  · simp only [List.mem_cons, List.not_mem_nil, or_false] at hm
    obtain ⟨S, h1, h2, h3, -⟩ := (discretize_lft_ok (N := N) (E := E) (G := G) (dt := dt) (method := method) (pw := pw)
      (q := q) (x := 1) (y := √dt) (z := √dt) (w := 0)
      (by rcases hm with rfl | rfl | rfl | rfl <;> simp [discretizeArgs, tustinNames, forwardNames])
      (by rcases hm with rfl | rfl | rfl | rfl <;> simp [tustinNames]) hG
      (by rcases hm with rfl | rfl | rfl | rfl <;> simp [knownMethods])).2 (by simp) hdt
    refine ⟨S, h1, h3, ?_⟩
    rw [h2]
    simp [hsq]
  · simp only [List.mem_cons, List.not_mem_nil, or_false] at hm
    obtain ⟨S, h1, h2, h3, -⟩ := (discretize_lft_ok (N := N) (E := E) (G := G) (dt := dt) (method := method) (pw := pw)
      (q := q) (x := 1) (y := √dt) (z := √dt) (w := dt)
      (by rcases hm with rfl | rfl | rfl | rfl <;> simp [discretizeArgs, tustinNames, forwardNames, backwardNames])
      (by rcases hm with rfl | rfl | rfl | rfl <;> simp [tustinNames]) hG
      (by rcases hm with rfl | rfl | rfl | rfl <;> simp [knownMethods])).2 h0 hdt
    refine ⟨S, h1, h3, ?_⟩
    rw [h2]
    simp only [hsq, one_smul]
  · simp only [List.mem_cons, List.not_mem_nil, or_false] at hm
    obtain ⟨S, h1, h2, h3, -⟩ := (discretize_lft_ok (N := N) (E := E) (G := G) (dt := dt) (method := method) (pw := 0)
      (q := q) (x := 1) (y := √dt) (z := √dt) (w := dt / 2)
      (by rcases hm with rfl | rfl <;> simp [discretizeArgs, discTustin, tustinQ, tustinNames, bind, Except.bind])
      (fun _ h => by positivity) hG
      (by rcases hm with rfl | rfl <;> simp [knownMethods])).2 h0 hdt
    refine ⟨S, h1, h3, ?_⟩
    rw [h2]
    simp only [hsq, one_smul]

/-- **C32** Nothing else is a method: with any other name `discretize` raises `ValueError`, whatever the
model. -/
theorem C32_unknown (h : method ∉ ["bilinear", "tustin", "zoh", "foh", "forward difference", "forward euler",
      "forward rectangular", "backward difference", "backward euler", "backward rectangular", "lft", ">>", "<<"]) :
    discretize N E G dt method pw q = .error .value := by
  have h' : method ∉ knownMethods := h
  simp [discretize, h']

/-- The model of `C32_spellings` exists. -/
example : ∃ S, StateObj.init N (some (Arr.of !![(-1 : ℝ)])) (some (Arr.of !![(1 : ℝ)])) (some (Arr.of !![(1 : ℝ)]))
    (some (Arr.of !![(0 : ℝ)])) none = .ok S ∧
    S.g = ⟨Arr.of !![(-1 : ℝ)], Arr.of !![(1 : ℝ)], Arr.of !![(1 : ℝ)], Arr.of !![(0 : ℝ)], none, false⟩ :=
  init_of dtOk_none _ _ _ _

/-- The name `C32_unknown` speaks of: `'trapezoidal'` is not accepted. -/
example : "trapezoidal" ∉ ["bilinear", "tustin", "zoh", "foh", "forward difference", "forward euler",
      "forward rectangular", "backward difference", "backward euler", "backward rectangular", "lft", ">>", "<<"] := by
  simp

end discretize

section attributes
variable {K P : Type} [Field K] [LinearOrder K] {E : TNum K} {N : Numerics K P}

/-- **C65** The names `DiscretizedWith` accepts on a discrete-time model, written out. -/
theorem C65_spellings (S : StateObj K P) (T : TransferObj K P) (method : String) :
    ((S.assign N (.discretizedWith method)).2 = none ↔ S.g.dt ≠ none ∧
      method ∈ ["bilinear", "tustin", "zoh", "foh", "forward difference", "forward euler",
      "forward rectangular", "backward difference", "backward euler", "backward rectangular", "lft", ">>", "<<"]) ∧
    ((T.assign E N (.discretizedWith method)).2 = none ↔ T.g.dt ≠ none ∧
      method ∈ ["bilinear", "tustin", "zoh", "foh", "forward difference", "forward euler",
      "forward rectangular", "backward difference", "backward euler", "backward rectangular", "lft", ">>", "<<"]) :=
  ⟨((C65_state_accepts N S).1 method).trans and_comm, ((C65_transfer_accepts E N T).1 method).trans and_comm⟩

end attributes

end Harold
