import Verif.Front.UsesReads
import Verif.ProofRules.LoopsSound

/-!
# Scoping makes variables of loop bodies local

Variables that a loop body declares and initialises are not used outside of the loop body, and they are not read before they are initialised. That is
what the theorems about loops assume (`Stmt.LocalsOk`).
-/

namespace Caesar
namespace Front

mutual

/-- The variables declared with an initial value. -/
def RStmt.inits : RStmt → List Ident
  | .seq ss => initsB ss
  | .var x _ (some _) => [x]
  | .demonic a b => initsB a ++ initsB b
  | .angelic a b => initsB a ++ initsB b
  | .additive a b => initsB a ++ initsB b
  | .ite _ a b => initsB a ++ initsB b
  | .while _ b => initsB b
  | .annot _ _ s => s.inits
  | _ => []

/-- `RStmt.inits` for blocks. -/
def initsB : List RStmt → List Ident
  | [] => []
  | s :: ss => s.inits ++ initsB ss

end

/-- The variables declared with an initial value in blocks of the statement. -/
def RStmt.inner : RStmt → List Ident
  | .var _ _ _ => []
  | s => s.inits

/-- `RStmt.inner` for blocks. -/
def innerB : List RStmt → List Ident
  | [] => []
  | s :: ss => s.inner ++ innerB ss

theorem inner_inits {x : Ident} {s : RStmt} (h : x ∈ s.inner) : x ∈ s.inits := by
  cases s with
  | var y t i => exact nomatch h
  | _ => exact h

theorem innerB_inits {x : Ident} : ∀ {ss : List RStmt}, x ∈ innerB ss → x ∈ initsB ss
  | [], h => nomatch h
  | s :: ss, h => by
    simp only [innerB, initsB, List.mem_append] at h ⊢
    exact h.imp inner_inits innerB_inits

mutual

/-- Variables with an initial value are used in the rest of their block only. -/
def RStmt.Loc (sl : Ident → Prop) : RStmt → Prop
  | .seq ss => LocB sl ss
  | .var x _ (some e) => ¬ e.FreeId x
  | .demonic a b => (∀ x ∈ initsB a, ¬ UsesB sl x b) ∧ (∀ x ∈ initsB b, ¬ UsesB sl x a) ∧ LocB sl a ∧ LocB sl b
  | .angelic a b => (∀ x ∈ initsB a, ¬ UsesB sl x b) ∧ (∀ x ∈ initsB b, ¬ UsesB sl x a) ∧ LocB sl a ∧ LocB sl b
  | .additive a b => (∀ x ∈ initsB a, ¬ UsesB sl x b) ∧ (∀ x ∈ initsB b, ¬ UsesB sl x a) ∧ LocB sl a ∧ LocB sl b
  | .ite c a b => (∀ x ∈ initsB a, ¬ c.FreeId x ∧ ¬ UsesB sl x b) ∧ (∀ x ∈ initsB b, ¬ c.FreeId x ∧ ¬ UsesB sl x a) ∧ LocB sl a ∧ LocB sl b
  | .while c b => (∀ x ∈ initsB b, ¬ c.FreeId x) ∧ LocB sl b
  | .annot f args s => (∀ x ∈ s.inits, ¬ sl f → ¬ FreeIdL x args) ∧ s.Loc sl
  | _ => True

/-- `RStmt.Loc` for blocks. -/
def LocB (sl : Ident → Prop) : List RStmt → Prop
  | [] => True
  | s :: ss => (∀ x ∈ s.inner, ¬ UsesB sl x ss) ∧ (∀ x ∈ initsB ss, ¬ s.Uses sl x) ∧ s.Loc sl ∧ LocB sl ss

end

mutual

theorem inits_strip : ∀ s : RStmt, s.strip.inits = s.inits
  | .seq ss => by simp only [RStmt.strip, RStmt.inits, initsB_strip ss]
  | .var x t none => rfl
  | .var x t (some e) => rfl
  | .assign _ _ => rfl
  | .havoc _ _ => rfl
  | .assert _ _ => rfl
  | .assume _ _ => rfl
  | .compare _ _ => rfl
  | .negate _ => rfl
  | .validate _ => rfl
  | .tick _ => rfl
  | .weigh _ => rfl
  | .demonic a b => by simp only [RStmt.strip, RStmt.inits, initsB_strip a, initsB_strip b]
  | .angelic a b => by simp only [RStmt.strip, RStmt.inits, initsB_strip a, initsB_strip b]
  | .additive a b => by simp only [RStmt.strip, RStmt.inits, initsB_strip a, initsB_strip b]
  | .ite _ a b => by simp only [RStmt.strip, RStmt.inits, initsB_strip a, initsB_strip b]
  | .while _ b => by simp only [RStmt.strip, RStmt.inits, initsB_strip b]
  | .annot _ _ s => by simp only [RStmt.strip, RStmt.inits, inits_strip s]
  | .label _ => rfl

theorem initsB_strip : ∀ ss : List RStmt, initsB (stripB ss) = initsB ss
  | [] => rfl
  | s :: ss => by simp only [stripB, initsB, inits_strip s, initsB_strip ss]

end

theorem inner_strip (s : RStmt) : s.strip.inner = s.inner := by
  cases s with
  | var x t i => rfl
  | seq ss => exact inits_strip (.seq ss)
  | demonic a b => exact inits_strip (.demonic a b)
  | angelic a b => exact inits_strip (.angelic a b)
  | additive a b => exact inits_strip (.additive a b)
  | ite c a b => exact inits_strip (.ite c a b)
  | «while» c b => exact inits_strip (.while c b)
  | annot f args s => exact inits_strip (.annot f args s)
  | _ => rfl

mutual

theorem loc_strip (sl : Ident → Prop) : ∀ s : RStmt, s.strip.Loc sl ↔ s.Loc sl
  | .seq ss => by simp only [RStmt.strip, RStmt.Loc, locB_strip sl ss]
  | .var x t none => Iff.rfl
  | .var x t (some e) => by simp only [RStmt.strip, Option.map_some, RStmt.Loc, freeId_strip]
  | .assign _ _ => Iff.rfl
  | .havoc _ _ => Iff.rfl
  | .assert _ _ => Iff.rfl
  | .assume _ _ => Iff.rfl
  | .compare _ _ => Iff.rfl
  | .negate _ => Iff.rfl
  | .validate _ => Iff.rfl
  | .tick _ => Iff.rfl
  | .weigh _ => Iff.rfl
  | .demonic a b => by simp only [RStmt.strip, RStmt.Loc, initsB_strip, usesB_strip, locB_strip sl a, locB_strip sl b]
  | .angelic a b => by simp only [RStmt.strip, RStmt.Loc, initsB_strip, usesB_strip, locB_strip sl a, locB_strip sl b]
  | .additive a b => by simp only [RStmt.strip, RStmt.Loc, initsB_strip, usesB_strip, locB_strip sl a, locB_strip sl b]
  | .ite _ a b => by simp only [RStmt.strip, RStmt.Loc, initsB_strip, usesB_strip, freeId_strip, locB_strip sl a, locB_strip sl b]
  | .while _ b => by simp only [RStmt.strip, RStmt.Loc, initsB_strip, freeId_strip, locB_strip sl b]
  | .annot _ _ s => by simp only [RStmt.strip, RStmt.Loc, inits_strip, freeIdL_strip, loc_strip sl s]
  | .label _ => Iff.rfl

theorem locB_strip (sl : Ident → Prop) : ∀ ss : List RStmt, LocB sl (stripB ss) ↔ LocB sl ss
  | [] => Iff.rfl
  | s :: ss => by simp only [stripB, LocB, inner_strip, initsB_strip, usesB_strip, uses_strip, loc_strip sl s, locB_strip sl ss]

end

/-! ## Name resolution -/

mutual

theorem inits_ids (anns : Anns) {x : Ident} : ∀ {s : RStmt}, x ∈ s.inits → x ∈ s.ids anns
  | .seq ss, h => by
    simp only [RStmt.inits] at h
    exact initsB_ids anns h
  | .var y t none, h => nomatch h
  | .var y t (some e), h => by
    simp only [RStmt.inits, List.mem_singleton] at h
    simp [RStmt.ids, bindsS, h]
  | .assign _ _, h => nomatch h
  | .havoc _ _, h => nomatch h
  | .assert _ _, h => nomatch h
  | .assume _ _, h => nomatch h
  | .compare _ _, h => nomatch h
  | .negate _, h => nomatch h
  | .validate _, h => nomatch h
  | .tick _, h => nomatch h
  | .weigh _, h => nomatch h
  | .demonic a b, h => by
    simp only [RStmt.inits, List.mem_append] at h
    simp only [RStmt.ids, bindsS, List.map_append, List.mem_append]
    exact h.imp (initsB_ids anns) (initsB_ids anns)
  | .angelic a b, h => by
    simp only [RStmt.inits, List.mem_append] at h
    simp only [RStmt.ids, bindsS, List.map_append, List.mem_append]
    exact h.imp (initsB_ids anns) (initsB_ids anns)
  | .additive a b, h => by
    simp only [RStmt.inits, List.mem_append] at h
    simp only [RStmt.ids, bindsS, List.map_append, List.mem_append]
    exact h.imp (initsB_ids anns) (initsB_ids anns)
  | .ite c a b, h => by
    simp only [RStmt.inits, List.mem_append] at h
    simp only [RStmt.ids, bindsS, List.map_append, List.mem_append]
    exact .inr (h.imp (initsB_ids anns) (initsB_ids anns))
  | .while c b, h => by
    simp only [RStmt.inits] at h
    simp only [RStmt.ids, bindsS, List.map_append, List.mem_append]
    exact .inr (initsB_ids anns h)
  | .annot f args s, h => by
    simp only [RStmt.inits] at h
    simp only [RStmt.ids, bindsS, List.map_append, List.mem_append]
    exact .inr (inits_ids anns h)
  | .label _, h => nomatch h

theorem initsB_ids (anns : Anns) {x : Ident} : ∀ {ss : List RStmt}, x ∈ initsB ss → x ∈ idsB anns ss
  | [], h => nomatch h
  | s :: ss, h => by
    simp only [initsB, List.mem_append] at h
    simp only [idsB, bindsB, List.map_append, List.mem_append]
    exact h.imp (inits_ids anns) (initsB_ids anns)

end

/-- The variables of nested blocks are not visible after the statement. -/
theorem inner_top {anns : Anns} {s : RStmt} (hn : (s.ids anns).Nodup) {x : Ident} (h : x ∈ s.inner) : x ∉ s.top anns := by
  cases s with
  | var y t i => exact nomatch h
  | annot f args s =>
    intro ht
    simp only [RStmt.top] at ht
    have h' : x ∈ s.ids anns := inits_ids anns h
    simp only [RStmt.ids, bindsS] at hn h'
    split at ht
    · rename_i g k hg
      simp only [hg, List.map_append] at hn
      exact (List.disjoint_of_nodup_append hn) ht h'
    · exact nomatch ht
  | label l => exact nomatch h
  | _ => exact fun ht => nomatch ht

theorem lexS_inner {anns : Anns} {s s' : RStmt} {env env' : Env} (h : lexS anns env s = some (s', env')) (hi : s'.inits = s.inits) {x : Ident}
    (hx : x ∈ s'.inner) : x ∈ s.inner := by
  cases s with
  | var y t i =>
    cases i <;>
    · simp only [lexS, Option.bind_eq_bind, Option.bind_eq_some_iff, Option.pure_def, Option.some.injEq, Prod.mk.injEq] at h
      repeat' obtain ⟨_, h⟩ := h
      subst_vars
      exact nomatch hx
  | _ =>
    have := inner_inits hx
    rw [hi] at this
    exact this

theorem lexBranches_loc {anns : Anns} {sl : Ident → Prop} (hA : ∀ n g k, anns n = some (g, k) → ¬ sl g → ∀ j m, k ≠ .slice j m)
    (a b : List RStmt) {env : Env} {a' b' : List RStmt} (ha : lexB anns env.sub a = some a') (hb : lexB anns env.sub b = some b')
    (hn : ((bindsB anns a).map Prod.fst ++ (bindsB anns b).map Prod.fst).Nodup)
    (hv : ∀ x, x ∈ (bindsB anns a).map Prod.fst ∨ x ∈ (bindsB anns b).map Prod.fst → ¬ env.Sees x)
    (h1 : LocB sl a') (h2 : initsB a' = initsB a) (h3 : LocB sl b') (h4 : initsB b' = initsB b) :
    (∀ x ∈ initsB a', ¬ UsesB sl x b') ∧ (∀ x ∈ initsB b', ¬ UsesB sl x a') ∧ LocB sl a' ∧ LocB sl b' := by
  have hd := List.disjoint_of_nodup_append hn
  refine ⟨fun x hx hu => ?_, fun x hx hu => ?_, h1, h3⟩
  · have hx' : x ∈ idsB anns a := initsB_ids anns (h2 ▸ hx)
    rcases lexB_sees (env := env.sub) hA b hb hu with h | h
    · exact hv x (.inl hx') h
    · exact hd hx' h
  · have hx' : x ∈ idsB anns b := initsB_ids anns (h4 ▸ hx)
    rcases lexB_sees (env := env.sub) hA a ha hu with h | h
    · exact hv x (.inr hx') h
    · exact hd h hx'

mutual

theorem lexS_loc {anns : Anns} {sl : Ident → Prop} (hA : ∀ n g k, anns n = some (g, k) → ¬ sl g → ∀ j m, k ≠ .slice j m) :
    ∀ (s : RStmt) {env env' : Env} {s' : RStmt}, lexS anns env s = some (s', env') → (s.ids anns).Nodup → (∀ x ∈ s.ids anns, ¬ env.Sees x) →
      s'.Loc sl ∧ s'.inits = s.inits
  | .seq ss, env, env', s', h, hn, hv => by
    simp only [lexS, Option.bind_eq_bind, Option.bind_eq_some_iff, Option.pure_def, Option.some.injEq, Prod.mk.injEq] at h
    obtain ⟨ss', h1, rfl, rfl⟩ := h
    exact lexB_loc (env := env.sub) hA ss h1 hn hv
  | .var x t none, env, env', s', h, hn, hv => by
    simp only [lexS, Option.bind_eq_bind, Option.bind_eq_some_iff, Option.pure_def, Option.some.injEq, Prod.mk.injEq] at h
    obtain ⟨env₁, h1, rfl, rfl⟩ := h
    exact ⟨trivial, rfl⟩
  | .var x t (some e), env, env', s', h, hn, hv => by
    simp only [lexS, Option.bind_eq_bind, Option.bind_eq_some_iff, Option.pure_def, Option.some.injEq, Prod.mk.injEq] at h
    obtain ⟨e', he, env₁, h1, rfl, rfl⟩ := h
    exact ⟨fun hx => hv x (by simp [RStmt.ids, bindsS]) (lexE_sees e he hx), rfl⟩
  | .assign lhs e, env, env', s', h, hn, hv => by
    simp only [lexS, Option.bind_eq_bind, Option.bind_eq_some_iff, Option.pure_def, Option.some.injEq, Prod.mk.injEq] at h
    obtain ⟨lhs', hl, e', he, rfl, rfl⟩ := h
    exact ⟨trivial, rfl⟩
  | .havoc d xs, env, env', s', h, hn, hv => by
    simp only [lexS, Option.bind_eq_bind, Option.bind_eq_some_iff, Option.pure_def, Option.some.injEq, Prod.mk.injEq] at h
    obtain ⟨xs', hl, rfl, rfl⟩ := h
    exact ⟨trivial, rfl⟩
  | .assert d e, env, env', s', h, hn, hv => by
    simp only [lexS, Option.bind_eq_bind, Option.bind_eq_some_iff, Option.pure_def, Option.some.injEq, Prod.mk.injEq] at h
    obtain ⟨e', he, rfl, rfl⟩ := h
    exact ⟨trivial, rfl⟩
  | .assume d e, env, env', s', h, hn, hv => by
    simp only [lexS, Option.bind_eq_bind, Option.bind_eq_some_iff, Option.pure_def, Option.some.injEq, Prod.mk.injEq] at h
    obtain ⟨e', he, rfl, rfl⟩ := h
    exact ⟨trivial, rfl⟩
  | .compare d e, env, env', s', h, hn, hv => by
    simp only [lexS, Option.bind_eq_bind, Option.bind_eq_some_iff, Option.pure_def, Option.some.injEq, Prod.mk.injEq] at h
    obtain ⟨e', he, rfl, rfl⟩ := h
    exact ⟨trivial, rfl⟩
  | .negate d, env, env', s', h, hn, hv => by
    simp only [lexS, Option.pure_def, Option.some.injEq, Prod.mk.injEq] at h
    obtain ⟨rfl, rfl⟩ := h
    exact ⟨trivial, rfl⟩
  | .validate d, env, env', s', h, hn, hv => by
    simp only [lexS, Option.pure_def, Option.some.injEq, Prod.mk.injEq] at h
    obtain ⟨rfl, rfl⟩ := h
    exact ⟨trivial, rfl⟩
  | .tick e, env, env', s', h, hn, hv => by
    simp only [lexS, Option.bind_eq_bind, Option.bind_eq_some_iff, Option.pure_def, Option.some.injEq, Prod.mk.injEq] at h
    obtain ⟨e', he, rfl, rfl⟩ := h
    exact ⟨trivial, rfl⟩
  | .weigh e, env, env', s', h, hn, hv => by
    simp only [lexS, Option.bind_eq_bind, Option.bind_eq_some_iff, Option.pure_def, Option.some.injEq, Prod.mk.injEq] at h
    obtain ⟨e', he, rfl, rfl⟩ := h
    exact ⟨trivial, rfl⟩
  | .demonic a b, env, env', s', h, hn, hv => by
    simp only [lexS, Option.bind_eq_bind, Option.bind_eq_some_iff, Option.pure_def, Option.some.injEq, Prod.mk.injEq] at h
    obtain ⟨a', ha, b', hb, rfl, rfl⟩ := h
    simp only [RStmt.ids, bindsS, List.map_append, List.mem_append] at hn hv
    obtain ⟨h1, h2⟩ := lexB_loc (env := env.sub) hA a ha hn.of_append_left fun x hx => hv x (.inl hx)
    obtain ⟨h3, h4⟩ := lexB_loc (env := env.sub) hA b hb hn.of_append_right fun x hx => hv x (.inr hx)
    exact ⟨lexBranches_loc hA a b ha hb hn hv h1 h2 h3 h4, by simp only [RStmt.inits, h2, h4]⟩
  | .angelic a b, env, env', s', h, hn, hv => by
    simp only [lexS, Option.bind_eq_bind, Option.bind_eq_some_iff, Option.pure_def, Option.some.injEq, Prod.mk.injEq] at h
    obtain ⟨a', ha, b', hb, rfl, rfl⟩ := h
    simp only [RStmt.ids, bindsS, List.map_append, List.mem_append] at hn hv
    obtain ⟨h1, h2⟩ := lexB_loc (env := env.sub) hA a ha hn.of_append_left fun x hx => hv x (.inl hx)
    obtain ⟨h3, h4⟩ := lexB_loc (env := env.sub) hA b hb hn.of_append_right fun x hx => hv x (.inr hx)
    exact ⟨lexBranches_loc hA a b ha hb hn hv h1 h2 h3 h4, by simp only [RStmt.inits, h2, h4]⟩
  | .additive a b, env, env', s', h, hn, hv => by
    simp only [lexS, Option.bind_eq_bind, Option.bind_eq_some_iff, Option.pure_def, Option.some.injEq, Prod.mk.injEq] at h
    obtain ⟨a', ha, b', hb, rfl, rfl⟩ := h
    simp only [RStmt.ids, bindsS, List.map_append, List.mem_append] at hn hv
    obtain ⟨h1, h2⟩ := lexB_loc (env := env.sub) hA a ha hn.of_append_left fun x hx => hv x (.inl hx)
    obtain ⟨h3, h4⟩ := lexB_loc (env := env.sub) hA b hb hn.of_append_right fun x hx => hv x (.inr hx)
    exact ⟨lexBranches_loc hA a b ha hb hn hv h1 h2 h3 h4, by simp only [RStmt.inits, h2, h4]⟩
  | .ite c a b, env, env', s', h, hn, hv => by
    simp only [lexS, Option.bind_eq_bind, Option.bind_eq_some_iff, Option.pure_def, Option.some.injEq, Prod.mk.injEq] at h
    obtain ⟨c', hc, a', ha, b', hb, rfl, rfl⟩ := h
    simp only [RStmt.ids, bindsS, List.map_append, List.mem_append] at hn hv
    obtain ⟨h1, h2⟩ := lexB_loc (env := env.sub) hA a ha hn.of_append_right.of_append_left fun x hx => hv x (.inr (.inl hx))
    obtain ⟨h3, h4⟩ := lexB_loc (env := env.sub) hA b hb hn.of_append_right.of_append_right fun x hx => hv x (.inr (.inr hx))
    have h := lexBranches_loc hA a b ha hb hn.of_append_right (fun x hx => hv x (.inr hx)) h1 h2 h3 h4
    refine ⟨⟨fun x hx => ⟨fun hf => ?_, h.1 x hx⟩, fun x hx => ⟨fun hf => ?_, h.2.1 x hx⟩, h.2.2⟩, by simp only [RStmt.inits, h2, h4]⟩
    · exact hv x (.inr (.inl (initsB_ids anns (h2 ▸ hx)))) (lexE_sees c hc hf)
    · exact hv x (.inr (.inr (initsB_ids anns (h4 ▸ hx)))) (lexE_sees c hc hf)
  | .while c b, env, env', s', h, hn, hv => by
    simp only [lexS, Option.bind_eq_bind, Option.bind_eq_some_iff, Option.pure_def, Option.some.injEq, Prod.mk.injEq] at h
    obtain ⟨c', hc, b', hb, rfl, rfl⟩ := h
    simp only [RStmt.ids, bindsS, List.map_append, List.mem_append] at hn hv
    obtain ⟨h1, h2⟩ := lexB_loc (env := env.sub) hA b hb hn.of_append_right fun x hx => hv x (.inr hx)
    refine ⟨⟨fun x hx hf => ?_, h1⟩, by simp only [RStmt.inits, h2]⟩
    exact hv x (.inr (initsB_ids anns (h2 ▸ hx))) (lexE_sees c hc hf)
  | .annot f args s, env, env', s', h, hn, hv => by
    simp only [lexS, Option.bind_eq_bind, Option.bind_eq_some_iff, Option.pure_def, Option.some.injEq, Prod.mk.injEq, Prod.exists] at h
    obtain ⟨g, k, hg, as, env₁, h1, s₁, env₂, h2, rfl, rfl⟩ := h
    simp only [RStmt.ids, bindsS, hg, List.map_append, List.mem_append] at hn hv
    have hv1 : ∀ x ∈ s.ids anns, ¬ env₁.Sees x := by
      intro x hx hs
      rcases hs.of_args h1 with h | h
      · exact hv x (.inr hx) h
      · exact List.disjoint_of_nodup_append hn h hx
    obtain ⟨h3, h4⟩ := lexS_loc (env := env₁.sub) hA s h2 hn.of_append_right hv1
    refine ⟨⟨fun x hx hs hf => ?_, h3⟩, by simp only [RStmt.inits, h4]⟩
    have hx' := inits_ids anns (h4 ▸ hx)
    rcases lexArgs_sees h1 (hA _ _ _ hg hs) hf with h | h
    · exact hv1 x hx' h
    · exact hv x (.inr hx') h
  | .label l, env, env', s', h, hn, hv => by
    simp only [lexS, Option.bind_eq_bind, Option.bind_eq_some_iff, Option.pure_def, Option.some.injEq, Prod.mk.injEq] at h
    obtain ⟨env₁, h1, rfl, rfl⟩ := h
    exact ⟨trivial, rfl⟩

theorem lexB_loc {anns : Anns} {sl : Ident → Prop} (hA : ∀ n g k, anns n = some (g, k) → ¬ sl g → ∀ j m, k ≠ .slice j m) :
    ∀ (ss : List RStmt) {env : Env} {ss' : List RStmt}, lexB anns env ss = some ss' → (idsB anns ss).Nodup → (∀ x ∈ idsB anns ss, ¬ env.Sees x) →
      LocB sl ss' ∧ initsB ss' = initsB ss
  | [], env, ss', h, hn, hv => by
    simp only [lexB, Option.pure_def, Option.some.injEq] at h
    subst h
    exact ⟨trivial, rfl⟩
  | s :: ss, env, ss', h, hn, hv => by
    simp only [lexB, Option.bind_eq_bind, Option.bind_eq_some_iff, Option.pure_def, Option.some.injEq, Prod.exists] at h
    obtain ⟨s', env₁, h1, ss₁, h2, rfl⟩ := h
    simp only [idsB, bindsB, List.map_append, List.mem_append] at hn hv
    have hd := List.disjoint_of_nodup_append hn
    have hv1 : ∀ x ∈ idsB anns ss, ¬ env₁.Sees x := by
      intro x hx hs
      rcases hs.of_stmt h1 with h | h
      · exact hv x (.inr hx) h
      · exact hd (top_ids h) hx
    obtain ⟨h3, h4⟩ := lexS_loc hA s h1 hn.of_append_left fun x hx => hv x (.inl hx)
    obtain ⟨h5, h6⟩ := lexB_loc hA ss h2 hn.of_append_right hv1
    refine ⟨⟨fun x hx hu => ?_, fun x hx hu => ?_, h3, h5⟩, by simp only [initsB, h4, h6]⟩
    · have hx' : x ∈ s.inner := lexS_inner h1 h4 hx
      have hx'' : x ∈ s.ids anns := inits_ids anns (inner_inits hx')
      rcases lexB_sees hA ss h2 hu with h | h
      · rcases h.of_stmt h1 with h | h
        · exact hv x (.inl hx'') h
        · exact inner_top hn.of_append_left hx' h
      · exact hd hx'' h
    · have hx' : x ∈ idsB anns ss := initsB_ids anns (h6 ▸ hx)
      rcases lexS_sees hA s h1 hu with h | h
      · exact hv x (.inr hx') h
      · exact hd h hx'

end

end Front
end Caesar
