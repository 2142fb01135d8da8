import Verif.TimeLoop.CosmoRun

/-!
# C100: the hypotheses are met

With the default parameters of `core/src/Cosmo.h` L93-99 and `tEnd = 1`.
-/

namespace Verif.TimeLoop

open Cosmo

noncomputable section

private def config (limited : Bool) : CosmoConfig :=
  { omegaM := 3 / 10, omegaV := 7 / 10, aStart := 1 / 100, aEnd := 1, da := 102 / 100, size := 1024, limited := limited }

private def handler : CosmoHandler := { iterEnd := 0, tEnd := 1, useTEnd := true, omegaM := 3 / 10, omegaV := 7 / 10 }

private theorem config_ok (b : Bool) : (config b).Ok where
  matter := ⟨by norm_num [config], by norm_num [config], by norm_num [config]⟩
  start := by norm_num [config]
  order := by norm_num [config]
  size := by norm_num [config]

/-- The entries of the table of expansion factors. -/
private def entry (i : ℕ) : ℝ := 1 / 100 + i * (109 / 100) / 1023

private theorem config_entry (b : Bool) {i : ℕ} (hi : i < 1024) :
    (config b).entries[i]? = some (entry i) := by
  have := lookupA_get (config b).aStart (config b).aEnd (n := 1024) hi
  unfold CosmoConfig.entries
  rw [show (config b).size = 1024 from rfl, this]
  norm_num [config, entry]

private theorem starts (b : Bool) : (config b).timeOf (config b).aStart < (config b).timeOf (1 / 2) ∧
    (config b).timeOf (1 / 2) ≤ (config b).timeOf handler.tEnd :=
  ⟨friedmann_strict (config_ok b).matter (config_ok b).start (by norm_num [config]),
    friedmann_le (config_ok b).matter (by norm_num) (by norm_num [handler])⟩

/-- A run from half of the final expansion factor, with a kernel that allows steps up to 1, ends, and what the theorems say
about finished runs holds for it. -/
example : ∃ fuel l x, cosmoRun (config true) handler 2 (fun _ => [1]) (fun _ => false) fuel 0
      { iter := 0, time := (config true).timeOf (1 / 2), aexp := 1 / 2, dt := 0 } = .finished l ∧
    l.getLast? = some x ∧ 1 - tEndEpsilon ≤ x.aexp ∧ x.aexp ≤ entry 930 ∧
    x.time ≤ (config true).timeOf 1 ∧ ∀ j (hj : j < l.length), l[j].iter = j + 1 ∧ l[j].dt ≤ 1 := by
  obtain ⟨fuel, l, hr⟩ := C100_ends (kernels := fun _ => [1]) (interrupted := fun _ => false) (big := 2) (δ := 1) (n := 0)
    (s := { iter := 0, time := (config true).timeOf (1 / 2), aexp := 1 / 2, dt := 0 }) (config_ok true)
    (h := handler) ⟨rfl, rfl⟩ rfl (by norm_num [handler, tEndEpsilon]) (by norm_num [handler, config])
    (fun _ => by norm_num [config]) one_pos (by norm_num) (fun _ x hx => by simp at hx; rw [hx]) (starts true).1 (starts true).2
  obtain ⟨h1, -, x, h3, h4⟩ := C100_run_partial (config_ok true) (h := handler) ⟨rfl, rfl⟩ rfl (by norm_num [handler])
    two_pos (fun _ x hx => by simp at hx; rw [hx]; norm_num) (starts true).2 hr
  have hm := h1 x (List.mem_of_getLast? h3)
  refine ⟨fuel, l, x, hr, h3, ?_, ?_, hm.1, fun j hj => ?_⟩
  · rcases h4 with h4 | h4 | h4
    · exact h4
    · exact absurd h4.1 (by norm_num [handler])
    · simp at h4
  · exact hm.2.2 _ (List.mem_of_getElem? (config_entry true (i := 930) (by norm_num))) (by norm_num [handler, entry])
  · have := (C100_steps hr).1 j hj
    exact ⟨by simpa using this.1, this.2.2 1 (by simp)⟩

/-- Entry 929 is the last one below 1: from there the run takes one step to the end and one backward. -/
example : ∃ x y, cosmoRun (config true) handler ((config true).timeOf 1 - (config true).timeOf (entry 929))
      (fun _ => []) (fun _ => false) 2 0
      { iter := 0, time := (config true).timeOf (entry 929), aexp := 0, dt := 0 } = .finished [x, y] ∧
    1 < y.aexp ∧ y.dt < 0 := by
  obtain ⟨x, y, h1, -, -, h2, h3, -⟩ := C100_backward_fails (kernels := fun _ => []) (interrupted := fun _ => false) (n := 0)
    (s := { iter := 0, time := (config true).timeOf (entry 929), aexp := 0, dt := 0 })
    (config_ok true) (h := handler) ⟨rfl, rfl⟩ rfl (le_refl _) (i := 928) (j := 929)
    (config_entry true (by norm_num)) rfl (by norm_num [handler, tEndEpsilon, entry]) (config_entry true (by norm_num))
    (config_entry true (by norm_num)) (by norm_num [handler, entry]) (by norm_num [handler, entry])
    (fun _ => by norm_num [handler, config, entry]) rfl (le_refl _) (fun x hx => by simp at hx)
  exact ⟨x, y, h1, h2, h3⟩

/-- A run of three steps without `use_tEnd`. -/
example {l : List CosmoScalars} (hr : cosmoRun (config false) { handler with useTEnd := false, iterEnd := 3 } 2 (fun _ => [1])
      (fun _ => false) 5 0 { iter := 0, time := (config true).timeOf (1 / 2), aexp := 1 / 2, dt := 0 } = .finished l) :
    ∃ x, l.getLast? = some x ∧ 3 ≤ x.iter := by
  obtain ⟨x, h1, h2⟩ := ((C100_steps hr).2 rfl rfl).2
  exact ⟨x, h1, by simpa using h2⟩

/-- Steps bounded by `da`: the hypotheses of `C100_growth` are met by the run of the first example, whatever its length. -/
example {fuel : ℕ} {l : List CosmoScalars} (hr : cosmoRun (config true) handler 2 (fun _ => [1]) (fun _ => false) fuel 0
      { iter := 0, time := (config true).timeOf (1 / 2), aexp := 1 / 2, dt := 0 } = .finished l) (hl : 1 < l.length)
    (ha : l[0].aexp ≤ 1 / 2) : l[1].aexp ≤ entry 470 :=
  C100_growth (config_ok true) rfl (by norm_num [config]) hr 0 hl
    (List.mem_of_getElem? (config_entry true (i := 470) (by norm_num))) (by
      have : l[0].aexp * (config true).da ≤ 1 / 2 * (102 / 100) :=
        mul_le_mul_of_nonneg_right ha (by norm_num [config])
      refine this.trans ?_
      norm_num [entry])

/-- `omegam = 1` and `omegav = 0` in the time loop, the defaults in the tables. -/
example : ∃ x, cosmoStep (config false) { handler with omegaM := 1, omegaV := 0 }
      (friedmann 1 0 1 - friedmann 1 0 (entry 500)) []
      { iter := 0, time := (config false).timeOf (entry 500), aexp := 0, dt := 0 } = some x ∧
    (config false).timeOf 1 < x.time := by
  obtain ⟨x, h1, -, h2⟩ := C100_two_universes_fails (config_ok false) (by norm_num [config])
    (h := { handler with omegaM := 1, omegaV := 0 }) ⟨rfl, rfl⟩ rfl (i := 499) (config_entry false (by norm_num)) rfl
    (s := { iter := 0, time := (config false).timeOf (entry 500), aexp := 0, dt := 0 })
    (by norm_num [handler, entry]) rfl (le_refl _) (dts := []) (fun x hx => by simp at hx)
  exact ⟨x, h1, h2⟩

end

end Verif.TimeLoop
