import Verif.Corr.Props

/-! Exactly when `adjust_range` clamps (C122). -/
set_option linter.unusedSectionVars false

namespace Tomopy.Corr

variable {K : Type} [LinearOrder K]

/-- **C122** With `dmin ≤ dmax`, every number in the result of `adjust_range` is inside the range
exactly if the array has no NaN or its numbers were all inside already. -/
theorem adjust_range_clamps_iff (lo hi : K) (hlh : lo ≤ hi) (l : List (Option K)) (h : l ≠ []) :
    (∃ out, adjustRange (some lo) (some hi) l = .ok out ∧ ∀ y, some y ∈ out → lo ≤ y ∧ y ≤ hi) ↔
      none ∉ l ∨ ∀ y, some y ∈ l → lo ≤ y ∧ y ≤ hi := by
  constructor
  · rintro ⟨out, ho, hb⟩
    by_cases hn : none ∈ l
    · rw [adjust_range_nan lo hi l hn, Except.ok.injEq] at ho
      subst ho
      exact Or.inr hb
    · exact Or.inl hn
  · intro hc
    by_cases hn : none ∈ l
    · exact ⟨l, adjust_range_nan lo hi l hn, hc.resolve_left (not_not_intro hn)⟩
    · obtain ⟨xs, rfl⟩ : ∃ xs : List K, l = xs.map some := by
        clear h hc
        induction l with
        | nil => exact ⟨[], rfl⟩
        | cons v t ih =>
          obtain ⟨xs, rfl⟩ := ih fun h => hn (List.mem_cons_of_mem _ h)
          cases v with
          | none => exact absurd List.mem_cons_self hn
          | some x => exact ⟨x :: xs, rfl⟩
      obtain ⟨ys, h1, _, h2, _⟩ := adjust_range_partial lo hi hlh xs (by simpa using h)
      refine ⟨_, h1, fun y hy => ?_⟩
      obtain ⟨x, hx, e⟩ := List.mem_map.1 hy
      exact Option.some.inj e ▸ h2 x hx

/-- Both sides occur. -/
example : (none ∉ [some (5 : ℚ), some 1]) ∧
    ¬ (none ∉ [some (5 : ℚ), none] ∨ ∀ y, some y ∈ [some (5 : ℚ), none] → 0 ≤ y ∧ y ≤ 2) := by
  refine ⟨by decide, ?_⟩
  rintro (h | h)
  · exact h (by decide)
  · exact absurd (h 5 (by decide)).2 (by decide)

end Tomopy.Corr
