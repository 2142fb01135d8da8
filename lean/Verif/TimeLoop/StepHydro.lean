import Verif.TimeLoop.StepParts

/-!
# The hydro part and the AMR cycle of a step
-/

set_option linter.unusedSectionVars false

namespace Verif.StepFields

open Verif.Fields

variable {L H α M : Type} [Zero α] [DecidableEq L] [DecidableEq H]

theorem next_notMem {F : Finset String} (hT : ∀ n ∈ F, ¬ Temporary n) (n : String) : next n ∉ F :=
  fun e => hT _ e (Or.inr (Or.inr ⟨n, rfl⟩))

/-- The fields of the run and their `_next`. -/
def withNext (F : Finset String) (names : List String) : Finset String := F ∪ (names.map next).toFinset

theorem mem_withNext {F : Finset String} {names : List String} {n : String} :
    n ∈ withNext F names ↔ n ∈ F ∨ ∃ m ∈ names, n = next m := by
  unfold withNext
  rw [Finset.mem_union, List.mem_toFinset, List.mem_map]
  constructor
  · rintro (h | ⟨m, h, rfl⟩)
    · exact Or.inl h
    · exact Or.inr ⟨m, h, rfl⟩
  · rintro (h | ⟨m, h, rfl⟩)
    · exact Or.inl h
    · exact Or.inr ⟨m, h, rfl⟩

theorem createNext_gives {S : Setup} {s : State String L H α} {F : Finset String} {d : String → L ⊕ H → α}
    (h : Fields.Inv s) (hs : Holds s ⟨F, d⟩) (hT : ∀ n ∈ F, ¬ Temporary n) (hc : F.card ≤ 32) :
    Gives (createNext S s) (withNext F (movedBack S)) fun n => if n ∈ F then d n else fun _ => 0 := by
  have hn := next_notMem hT
  have f1 : ∀ n ∈ ["e_tot_next", "rho_next", "rho_vx_next", "rho_vy_next", "rho_vz_next"], n ∉ F := by
    intro n hm
    simp only [List.mem_cons, List.not_mem_nil, or_false] at hm
    rcases hm with rfl | rfl | rfl | rfl | rfl
    · exact hn "e_tot"
    · exact hn "rho"
    · exact hn "rho_vx"
    · exact hn "rho_vy"
    · exact hn "rho_vz"
  have g1 := newFields_gives h hs (by decide) f1 (by simp only [List.length_cons, List.length_nil]; omega)
  have c1 : (F ∪ ["e_tot_next", "rho_next", "rho_vx_next", "rho_vy_next", "rho_vz_next"].toFinset).card ≤ F.card + 5 :=
    Finset.card_union_le _ _
  -- zero outside `F`
  have hz : ∀ (G : Finset String) (e : String → L ⊕ H → α) (l : List String) (o : Option (State String L H α)),
      (∀ n ∈ G, e n = if n ∈ F then d n else fun _ => 0) → (∀ n ∈ l, n ∉ F) →
      Gives o (G ∪ l.toFinset) (fun n => if n ∈ l then fun _ => 0 else e n) →
      Gives o (G ∪ l.toFinset) fun n => if n ∈ F then d n else fun _ => 0 := by
    intro G e l o he hl ho
    refine ho.congr rfl fun n hn => ?_
    by_cases hm : n ∈ l
    · rw [if_pos hm, if_neg (hl n hm)]
    · rw [if_neg hm]
      rw [Finset.mem_union, List.mem_toFinset] at hn
      exact he n (hn.resolve_right hm)
  have g1' := hz F d _ _ (fun n hn => (if_pos hn).symm) f1 g1
  unfold createNext
  refine g1'.bind fun s1 i1 k1 => ?_
  have key : ∀ (t : List String), t.Perm ((movedBack S).map next) →
      ∀ G : Finset String, G = F ∪ t.toFinset → G = withNext F (movedBack S) := by
    intro t ht G hG
    rw [hG]
    unfold withNext
    congr 1
    exact List.toFinset_eq_of_perm _ _ ht
  by_cases hm : S.hasMhd
  · rw [if_pos hm]
    have f2 : ∀ n ∈ ["Bx_next", "By_next", "Bz_next"],
        n ∉ F ∪ ["e_tot_next", "rho_next", "rho_vx_next", "rho_vy_next", "rho_vz_next"].toFinset := by
      intro n hm
      simp only [List.mem_cons, List.not_mem_nil, or_false] at hm
      rw [Finset.mem_union, not_or]
      rcases hm with rfl | rfl | rfl
      · exact ⟨hn "Bx", by decide⟩
      · exact ⟨hn "By", by decide⟩
      · exact ⟨hn "Bz", by decide⟩
    have g2 := newFields_gives i1 k1 (by decide) f2 (by simp only [List.length_cons, List.length_nil]; omega)
    have g2' := hz _ _ _ _ (fun n _ => rfl) (fun n hn e => f2 n hn (Finset.mem_union_left _ e)) g2
    refine g2'.bind fun s2 i2 k2 => ?_
    have c2 : (F ∪ ["e_tot_next", "rho_next", "rho_vx_next", "rho_vy_next", "rho_vz_next"].toFinset ∪
        ["Bx_next", "By_next", "Bz_next"].toFinset).card ≤ F.card + 5 + 3 :=
      le_trans (Finset.card_union_le _ _) (Nat.add_le_add_right c1 _)
    by_cases hp : S.isGlm
    · rw [if_pos hp]
      have f3 : ∀ n ∈ ["psi_next"],
          n ∉ F ∪ ["e_tot_next", "rho_next", "rho_vx_next", "rho_vy_next", "rho_vz_next"].toFinset ∪
            ["Bx_next", "By_next", "Bz_next"].toFinset := by
        intro n hm
        simp only [List.mem_cons, List.not_mem_nil, or_false] at hm
        rw [Finset.mem_union, Finset.mem_union, not_or, not_or]
        rw [hm]
        exact ⟨⟨hn "psi", by decide⟩, by decide⟩
      have g3 := newFields_gives i2 k2 (by decide) f3 (by simp only [List.length_cons, List.length_nil]; omega)
      have g3' := hz _ _ _ _ (fun n _ => rfl) (fun n hn e => f3 n hn (Finset.mem_union_left _ (Finset.mem_union_left _ e))) g3
      refine g3'.congr ?_ fun _ _ => rfl
      refine key ["e_tot_next", "rho_next", "rho_vx_next", "rho_vy_next", "rho_vz_next", "Bx_next", "By_next", "Bz_next",
        "psi_next"] ?_ _ ?_
      · unfold movedBack
        rw [if_pos hm, if_pos hp]
        decide
      · rw [Finset.union_assoc, Finset.union_assoc]
        congr 1
    · rw [if_neg hp]
      refine (Gives.some i2 k2).congr ?_ fun _ _ => rfl
      refine key ["e_tot_next", "rho_next", "rho_vx_next", "rho_vy_next", "rho_vz_next", "Bx_next", "By_next", "Bz_next"] ?_ _ ?_
      · unfold movedBack
        rw [if_pos hm, if_neg hp]
        decide
      · rw [Finset.union_assoc]
        congr 1
  · rw [if_neg hm]
    refine (Gives.some i1 k1).congr ?_ fun _ _ => rfl
    refine key _ ?_ _ rfl
    unfold movedBack
    rw [if_neg hm]
    decide

/-- Arrays while the gas moves: the old ones and the new ones. -/
def during (F : Finset String) (names : List String) (d new : String → L ⊕ H → α) (e : String → L ⊕ H → α) : Prop :=
  (∀ n ∈ F, e n = d n) ∧ ∀ n ∈ names, e (next n) = new n

theorem hydroKernel_gives {S : Setup} {W : Work (L ⊕ H) α M} {s : State String L H α} {F : Finset String}
    {d : String → L ⊕ H → α} {names : List String} (h : Fields.Inv s)
    (hs : Holds s ⟨withNext F names, fun n => if n ∈ F then d n else fun _ => 0⟩) (hT : ∀ n ∈ F, ¬ Temporary n)
    (h0 : names ≠ []) (h9 : names.length ≤ 9) (hn : ∀ n ∈ names, n ∈ F) (hg : ∀ n ∈ hydroGravity S, n ∈ F) :
    ∃ e, Gives (kernel (names ++ hydroGravity S) names next W.hydro s) (withNext F names) e ∧
      during F names d (W.hydro (only (names ++ if usesField S.type then ["gx", "gy", "gz"] else []) d)) e := by
  have hlen : (hydroGravity S).length ≤ 3 := by
    unfold hydroGravity
    split_ifs <;> simp
  have hin : ∀ n ∈ names ++ hydroGravity S, n ∈ F := by
    intro n hm
    rw [List.mem_append] at hm
    exact hm.elim (hn n) (hg n)
  have hview : (fun n => if n ∈ names ++ hydroGravity S ++ names.map next then
      (if n ∈ F then d n else fun _ => 0) else fun _ => (0 : α)) =
      only (names ++ if usesField S.type then ["gx", "gy", "gz"] else []) d := by
    funext n
    unfold only
    change _ = if n ∈ names ++ hydroGravity S then d n else fun _ => 0
    by_cases a : n ∈ names ++ hydroGravity S
    · rw [if_pos a, if_pos (List.mem_append_left _ a), if_pos (hin n a)]
    · rw [if_neg a]
      by_cases b : n ∈ names.map next
      · rw [if_pos (List.mem_append_right _ b), if_neg]
        rw [List.mem_map] at b
        obtain ⟨m, -, rfl⟩ := b
        exact next_notMem hT m
      · rw [if_neg]
        rw [List.mem_append, not_or]
        exact ⟨a, b⟩
  refine ⟨fun n => if n ∈ F then d n else match names.find? fun m => next m = n with
    | some m => W.hydro (only (names ++ if usesField S.type then ["gx", "gy", "gz"] else []) d) m
    | none => fun _ => 0, ?_, fun n hn => if_pos hn, ?_⟩
  · refine kernel_spec h hs ?_ ?_ ?_ h0 (by omega) ?_ _ ?_ ?_
    · intro e
      rw [List.append_eq_nil_iff] at e
      exact h0 e.1
    · rw [List.length_append]; omega
    · intro n hm
      exact mem_withNext.2 (Or.inl (hin n hm))
    · intro k hk
      exact mem_withNext.2 (Or.inr ⟨k, hk, rfl⟩)
    · intro k hk
      rw [hview, if_neg (next_notMem hT k)]
      cases hf : names.find? fun m => next m = next k with
      | none =>
        rw [List.find?_eq_none] at hf
        exact (hf k hk (by simp)).elim
      | some m =>
        have := List.find?_some hf
        simp only [decide_eq_true_eq] at this
        rw [next_inj this]
    · intro n hm hk
      have hF : n ∈ F := by
        rcases mem_withNext.1 hm with a | ⟨m, a, rfl⟩
        · exact a
        · exact absurd (List.mem_map_of_mem a) hk
      simp only [if_pos hF]
  · intro k hk
    dsimp only
    rw [if_neg (next_notMem hT k)]
    cases hf : names.find? fun m => next m = next k with
    | none =>
      rw [List.find?_eq_none] at hf
      exact (hf k hk (by simp)).elim
    | some m =>
      have := List.find?_some hf
      simp only [decide_eq_true_eq] at this
      rw [next_inj this]

theorem extra_gives {s : State String L H α} {F : Finset String} {names : List String} {d new e : String → L ⊕ H → α}
    (x : List String × ((String → L ⊕ H → α) → (String → L ⊕ H → α) → String → L ⊕ H → α)) (h : Fields.Inv s)
    (hs : Holds s ⟨withNext F names, e⟩) (he : during F names d new e) (hT : ∀ n ∈ F, ¬ Temporary n)
    (hn : ∀ n ∈ names, n ∈ F) (h0 : x.1 ≠ []) (h32 : x.1.length ≤ 32) (hx : ∀ n ∈ x.1, n ∈ names) :
    ∃ e', Gives (extra x s) (withNext F names) e' ∧
      during F names d (fun n => if n ∈ x.1 then x.2 (only x.1 d) (only x.1 new) n else new n) e' := by
  have hview : (fun n => if n ∈ x.1 then (if n ∈ x.1 ++ x.1.map next then e n else fun _ => 0) else fun _ => (0 : α))
      = only x.1 d := by
    funext n
    unfold only
    split_ifs with a b
    · exact he.1 n (hn n (hx n a))
    · exact absurd (List.mem_append_left _ a) b
    · rfl
  have hview2 : (fun n => if n ∈ x.1 then (if next n ∈ x.1 ++ x.1.map next then e (next n) else fun _ => 0)
      else fun _ => (0 : α)) = only x.1 new := by
    funext n
    unfold only
    split_ifs with a b
    · exact he.2 n (hx n a)
    · exact absurd (List.mem_append_right _ (List.mem_map_of_mem a)) b
    · rfl
  refine ⟨fun n => match x.1.find? fun m => next m = n with
    | some m => x.2 (only x.1 d) (only x.1 new) m
    | none => e n, ?_, ?_, ?_⟩
  · refine kernel_spec h hs h0 h32 ?_ h0 h32 ?_ _ ?_ ?_
    · intro n hm
      exact mem_withNext.2 (Or.inl (hn n (hx n hm)))
    · intro n hm
      exact mem_withNext.2 (Or.inr ⟨n, hx n hm, rfl⟩)
    · intro k hk
      rw [hview, hview2]
      cases hf : x.1.find? fun m => next m = next k with
      | none =>
        rw [List.find?_eq_none] at hf
        exact (hf k hk (by simp)).elim
      | some m =>
        have := List.find?_some hf
        simp only [decide_eq_true_eq] at this
        rw [next_inj this]
    · intro n _ hk
      cases hf : x.1.find? fun m => next m = n with
      | none => rfl
      | some m =>
        have h1 := List.mem_of_find?_eq_some hf
        have h2 := List.find?_some hf
        simp only [decide_eq_true_eq] at h2
        exact absurd (h2 ▸ List.mem_map_of_mem h1) hk
  · intro n hnF
    dsimp only
    cases hf : x.1.find? fun m => next m = n with
    | none => exact he.1 n hnF
    | some m =>
      have h2 := List.find?_some hf
      simp only [decide_eq_true_eq] at h2
      exact absurd (h2 ▸ hnF) (next_notMem hT m)
  · intro k hk
    dsimp only
    cases hf : x.1.find? fun m => next m = next k with
    | none =>
      rw [List.find?_eq_none] at hf
      rw [if_neg fun a => hf k a (by simp)]
      exact he.2 k hk
    | some m =>
      have h1 := List.mem_of_find?_eq_some hf
      have h2 := List.find?_some hf
      simp only [decide_eq_true_eq] at h2
      rw [next_inj h2] at h1
      rw [if_pos h1, next_inj h2]

theorem extras_gives {F : Finset String} {names : List String} {d : String → L ⊕ H → α} (hT : ∀ n ∈ F, ¬ Temporary n)
    (hn : ∀ n ∈ names, n ∈ F)
    (xs : List (List String × ((String → L ⊕ H → α) → (String → L ⊕ H → α) → String → L ⊕ H → α)))
    (hxs : ∀ x ∈ xs, x.1 ≠ [] ∧ x.1.length ≤ 32 ∧ ∀ n ∈ x.1, n ∈ names) :
    ∀ {s : State String L H α} {new e : String → L ⊕ H → α}, Fields.Inv s → Holds s ⟨withNext F names, e⟩ →
      during F names d new e →
      ∃ e', Gives (xs.foldlM (fun s e => extra e s) s) (withNext F names) e' ∧
        during F names d (xs.foldl (fun new e n => if n ∈ e.1 then e.2 (only e.1 d) (only e.1 new) n else new n) new) e' := by
  induction xs with
  | nil => intro s new e h hs he; exact ⟨e, Gives.some h hs, he⟩
  | cons x xs ih =>
    intro s new e h hs he
    obtain ⟨a, b, c⟩ := hxs x List.mem_cons_self
    obtain ⟨e1, ⟨s1, o1, i1, k1⟩, d1⟩ := extra_gives x h hs he hT hn a b c
    obtain ⟨e2, g2, d2⟩ := ih (fun y hy => hxs y (List.mem_cons_of_mem _ hy)) i1 k1 d1
    refine ⟨e2, ?_, d2⟩
    rw [List.foldlM_cons, o1]
    exact g2

theorem moveNext_gives {F : Finset String} {new : String → L ⊕ H → α} (hT : ∀ n ∈ F, ¬ Temporary n) (names : List String) :
    ∀ {s : State String L H α} {d e : String → L ⊕ H → α}, names.Nodup → (∀ n ∈ names, n ∈ F) → Fields.Inv s →
      Holds s ⟨withNext F names, e⟩ → (∀ n ∈ F, n ∉ names → e n = d n) → (∀ n ∈ names, e (next n) = new n) →
      Gives (moveNext names s) F fun n => if n ∈ names then new n else d n := by
  induction names with
  | nil =>
    intro s d e _ _ h hs h1 _
    refine (Gives.some h hs).congr (by simp [withNext]) fun n hn => ?_
    rw [if_neg (by simp)]
    exact h1 n hn (by simp)
  | cons m names ih =>
    intro s d e hnd hn h hs h1 h2
    rw [List.nodup_cons] at hnd
    have hm : m ∈ F := hn m List.mem_cons_self
    have hne : m ≠ next m := fun c => next_notMem hT m (c ▸ hm)
    unfold moveNext
    rw [List.foldlM_cons]
    obtain ⟨s1, o1, i1, k1⟩ := moveField_gives h hs (src := next m) (dest := m)
      (mem_withNext.2 (Or.inr ⟨m, List.mem_cons_self, rfl⟩)) hne
    rw [o1]
    change Gives (moveNext names s1) F _
    have hF1 : (insert m (withNext F (m :: names))).erase (next m) = withNext F names := by
      ext n
      rw [Finset.mem_erase, Finset.mem_insert, mem_withNext, mem_withNext]
      constructor
      · rintro ⟨a, b | b | ⟨k, b, rfl⟩⟩
        · exact Or.inl (b ▸ hm)
        · exact Or.inl b
        · rw [List.mem_cons] at b
          rcases b with rfl | b
          · exact absurd rfl a
          · exact Or.inr ⟨k, b, rfl⟩
      · rintro (b | ⟨k, b, rfl⟩)
        · exact ⟨fun c => next_notMem hT m (c ▸ b), Or.inr (Or.inl b)⟩
        · refine ⟨fun c => hnd.1 (next_inj c ▸ b), Or.inr (Or.inr ⟨k, List.mem_cons_of_mem _ b, rfl⟩)⟩
    rw [hF1] at k1
    -- `m` has its new array already: it is not moved again
    have g := ih (s := s1) (e := Function.update e m (e (next m))) (d := Function.update d m (new m)) hnd.2
      (fun n hn' => hn n (List.mem_cons_of_mem _ hn')) i1 k1 (by
        intro n hnF hnn
        by_cases a : n = m
        · subst a
          rw [Function.update_self, Function.update_self]
          exact h2 n List.mem_cons_self
        · rw [Function.update_of_ne a, Function.update_of_ne a]
          refine h1 n hnF ?_
          rw [List.mem_cons, not_or]
          exact ⟨a, hnn⟩) (by
        intro n hnn
        rw [Function.update_of_ne]
        · exact h2 n (List.mem_cons_of_mem _ hnn)
        · exact fun c => next_notMem hT n (c ▸ hm))
    refine g.congr rfl fun n hnF => ?_
    by_cases a : n = m
    · subst a
      rw [if_neg hnd.1, Function.update_self, if_pos List.mem_cons_self]
    · rw [Function.update_of_ne a]
      refine if_congr ?_ rfl rfl
      rw [List.mem_cons]
      tauto

theorem hydroPart_gives {S : Setup} {W : Work (L ⊕ H) α M} {s : State String L H α} {F : Finset String}
    {d : String → L ⊕ H → α} {state : Option (List String)} (h : Fields.Inv s) (hs : Holds s ⟨F, d⟩)
    (hmade : makeHydro S.hydroId = some state) (hT : ∀ n ∈ F, ¬ Temporary n) (hc : F.card ≤ 32)
    (hn : ∀ names, state = some names → ∀ n ∈ names, n ∈ F) (hg : state ≠ none → ∀ n ∈ hydroGravity S, n ∈ F)
    (hW : W.Fits state) : Gives (hydroPart S W s) F (flowed S W state d) := by
  unfold hydroPart
  rw [hmade, Option.bind_some]
  cases state with
  | none => exact Gives.some h hs
  | some names =>
    simp only
    obtain ⟨h0, h9, hnd⟩ := names_small hmade
    have hback := movedBack_some hmade
    refine (createNext_gives (S := S) h hs hT hc).bind fun s1 i1 k1 => ?_
    rw [hback] at k1 ⊢
    have hn' := hn names rfl
    obtain ⟨e2, ⟨s2, o2, i2, k2⟩, d2⟩ := hydroKernel_gives (W := W) (S := S) i1 k1 hT h0 h9 hn' (hg (by simp))
    rw [o2, Option.bind_some]
    obtain ⟨e3, ⟨s3, o3, i3, k3⟩, d3⟩ := extras_gives hT hn' W.extras (hW names rfl) i2 k2 d2
    rw [o3, Option.bind_some]
    exact moveNext_gives hT names hnd hn' i3 k3 (fun n hn _ => d3.1 n hn) d3.2

end Verif.StepFields
