import Verif.Props.RampCont
import Verif.Props.SineTransfer

/-!
# C138 for models of all kinds, static gains included
-/

namespace Harold

open Matrix Spec Filter Topology

variable {P : Type} {Nm : Numerics ℝ P} {Bn : DNum} {S : StateObj ℝ P} {p m : ℕ} {h : ℝ}

/-- The model without states that stands for a static gain. -/
theorem gain_stand_in {a b c : Arr ℝ} {D : Matrix (Fin p) (Fin m) ℝ} {dt : Option ℝ} :
    let T := stateOf (0 : Matrix (Fin 0) (Fin 0) ℝ) (0 : Matrix (Fin 0) (Fin m) ℝ) (0 : Matrix (Fin p) (Fin 0) ℝ) D dt
    StableModel T ∧ SameTF ⟨a, b, c, Arr.of D, dt, true⟩ T p m ∧
      ∀ {s : ℝ} {M M' : Matrix (Fin p) (Fin m) ℝ}, SlopeAt T p m s M M' → SlopeAt ⟨a, b, c, Arr.of D, dt, true⟩ p m s M M' := by
  intro T
  have r : Rep (⟨a, b, c, Arr.of D, dt, true⟩ : StateM ℝ) (0 : Matrix (Fin 0) (Fin 0) ℝ) (0 : Matrix (Fin 0) (Fin m) ℝ) (0 : Matrix (Fin p) (Fin 0) ℝ) D := rep_gain a b c D dt
  have r' : Rep T (0 : Matrix (Fin 0) (Fin 0) ℝ) (0 : Matrix (Fin 0) (Fin m) ℝ) (0 : Matrix (Fin p) (Fin 0) ℝ) D := rep_dyn _ _ _ D dt
  have hc : Consistent T p m := ⟨⟨rfl, rfl⟩, fun _ => ⟨rfl, rfl, rfl, rfl, rfl⟩⟩
  refine ⟨(stable_iff_char hc).mpr fun z hz => ?_, rep_same r r' fun _ => rfl, ?_⟩
  · have := (r'.char z 0).mp hz
    simp at this
  · rintro s M M' ⟨f, h1, h2, h3⟩
    refine ⟨f, h1.mono fun z hz => ?_, h2, h3⟩
    have e : HasTF T p m z D := by
      have := hasTF_at_real (A := (0 : Matrix (Fin 0) (Fin 0) ℝ)) (B := (0 : Matrix (Fin 0) (Fin m) ℝ)) (C := (0 : Matrix (Fin p) (Fin 0) ℝ)) (D := D) (dt := dt) (s := z) (by simp)
      simpa using this
    rw [HasTF_unique hz e]
    exact Or.inl ⟨rfl, D, rfl, by ext; simp⟩

/-- **C138** for stable discrete `State` models of all kinds, static gains included, simulated from rest. -/
theorem C138_ramp_rest (hE : BalanceOk Bn) (hm : 1 ≤ m) (hc : Consistent S.g p m) (hh : 0 < h) (hd : S.g.dt = some h) (hst : StableModel S.g) :
    ∃ M M' : Matrix (Fin p) (Fin m) ℝ, SlopeAt S.g p m 1 M M' ∧ ∀ v : Fin m → ℝ,
      ∃ y, SimulatesTo Nm Bn S h none (fun k => (k : ℝ) • v) y ∧ Tendsto (fun k : ℕ => y k - ((k : ℝ) • (M *ᵥ v) + M' *ᵥ v)) atTop (𝓝 0) := by
  have hok : DtOk S.g.dt := fun t ht => by rw [hd] at ht; cases ht; exact hh
  obtain ⟨a, b, c, D, dt', hS⟩ | ⟨n, A, B, C, D, dt', hS⟩ := consistent_cases hc
  · obtain rfl : dt' = some h := by rw [← hd, hS]
    obtain ⟨g1, g2, g3⟩ := gain_stand_in (a := a) (b := b) (c := c) (D := D) (dt := some h)
    obtain ⟨M, M', h1, h2⟩ := C138_ramp (Nm := Nm) (E := Bn) (S := StateObj.plain (stateOf (0 : Matrix (Fin 0) (Fin 0) ℝ) (0 : Matrix (Fin 0) (Fin m) ℝ) (0 : Matrix (Fin p) (Fin 0) ℝ) D (some h))) hm rfl g1
    refine ⟨M, M', by rw [hS]; exact g3 h1, fun v => ?_⟩
    obtain ⟨y, h3, h4⟩ := h2 none 0 (Or.inl ⟨rfl, rfl⟩) v
    exact ⟨y, fun N hN => (C84_realization_iff (S := S) hE hc ⟨⟨rfl, rfl⟩, fun _ => ⟨rfl, rfl, rfl, rfl, rfl⟩⟩ hok hd.symm hm (by rw [hS]; exact g2)).mpr (h3 N hN), h4⟩
  · obtain rfl : dt' = some h := by rw [← hd, hS]
    obtain ⟨M, M', h1, h2⟩ := C138_ramp (Nm := Nm) (E := Bn) hm hS hst
    exact ⟨M, M', h1, h2 none 0 (Or.inl ⟨rfl, rfl⟩)⟩

/-- **C138** for stable continuous `State` models of all kinds, static gains included, simulated from rest. -/
theorem C138_ramp_continuous_rest (hE : BalanceOk Bn) (hm : 1 ≤ m) (hc : Consistent S.g p m) (hd : S.g.dt = none) (hst : StableModel S.g) :
    ∃ M M' : Matrix (Fin p) (Fin m) ℝ, SlopeAt S.g p m 0 M M' ∧ ∃ J : ℝ → Matrix (Fin p) (Fin m) ℝ, Tendsto J (𝓝[>] 0) (𝓝 M') ∧
      ∀ h : ℝ, 0 < h → ∀ (t0 : ℝ) (v : Fin m → ℝ), ∃ y : ℕ → Fin p → ℝ,
        (∀ N, 2 ≤ N → simulate Nm Bn S (firstRows (fun k => ((k : ℝ) * h) • v) N) (some (eqGrid N t0 h)) none false = .ok (.flat (firstRows y N), eqGrid N t0 h)) ∧
        Tendsto (fun k : ℕ => y k - (((k : ℝ) * h) • (M *ᵥ v) + J h *ᵥ v)) atTop (𝓝 0) := by
  have hok : DtOk S.g.dt := by rw [hd]; exact dtOk_none
  obtain ⟨a, b, c, D, dt', hS⟩ | ⟨n, A, B, C, D, dt', hS⟩ := consistent_cases hc
  · obtain rfl : dt' = none := by rw [← hd, hS]
    obtain ⟨g1, g2, g3⟩ := gain_stand_in (a := a) (b := b) (c := c) (D := D) (dt := none)
    obtain ⟨M, M', h1, J, hJ, h2⟩ := C138_ramp_continuous (Nm := Nm) (E := Bn) (S := StateObj.plain (stateOf (0 : Matrix (Fin 0) (Fin 0) ℝ) (0 : Matrix (Fin 0) (Fin m) ℝ) (0 : Matrix (Fin p) (Fin 0) ℝ) D none)) hE hm rfl g1
    refine ⟨M, M', by rw [hS]; exact g3 h1, J, hJ, fun h hh t0 v => ?_⟩
    obtain ⟨y, h3, h4⟩ := h2 h hh t0 none 0 (Or.inl ⟨rfl, rfl⟩) v
    exact ⟨y, fun N hN => (C84_realization_iff (S := S) hE hc ⟨⟨rfl, rfl⟩, fun _ => ⟨rfl, rfl, rfl, rfl, rfl⟩⟩ hok hd.symm hm (by rw [hS]; exact g2)).mpr (h3 N hN), h4⟩
  · obtain rfl : dt' = none := by rw [← hd, hS]
    obtain ⟨M, M', h1, J, hJ, h2⟩ := C138_ramp_continuous (Nm := Nm) (E := Bn) hE hm hS hst
    exact ⟨M, M', h1, J, hJ, fun h hh t0 v => h2 h hh t0 none 0 (Or.inl ⟨rfl, rfl⟩) v⟩

/-- The gain 3 is a stable model and meets the hypotheses. -/
example : Consistent (⟨Arr.empty, Arr.empty, Arr.empty, Arr.of (!![3] : Matrix (Fin 1) (Fin 1) ℝ), some 1, true⟩ : StateM ℝ) 1 1 ∧
    StableModel (⟨Arr.empty, Arr.empty, Arr.empty, Arr.of (!![3] : Matrix (Fin 1) (Fin 1) ℝ), some 1, true⟩ : StateM ℝ) :=
  ⟨⟨⟨rfl, rfl⟩, fun h => by cases h⟩, Or.inl rfl⟩

end Harold
