import Verif.Front.Lexical
import Mathlib.Data.List.Nodup

/-!
# Scopes represent environments

The scopes of `Resolve` and the environments of the specification.
-/

namespace Caesar

namespace ScopeMap
variable {K V : Type} [DecidableEq K]

theorem get_insert {m m' : ScopeMap K V} {k : K} {v : V} (h : m.insert k v = some m') (k' : K) :
    m'.get k' = if k = k' then some v else m.get k' := by
  unfold insert at h
  split at h
  · cases h
  · rename_i s ss hs
    cases h
    simp only [get, getIn, IndexMap.get_insert, hs]
    by_cases hk : k = k' <;> simp [hk]

theorem localGet_insert {m m' : ScopeMap K V} {k : K} {v : V} (h : m.insert k v = some m') (k' : K) :
    m'.localGet k' = if k = k' then some v else m.localGet k' := by
  unfold insert at h
  split at h
  · cases h
  · rename_i s ss hs
    cases h
    simp only [localGet, IndexMap.get_insert, hs]
    by_cases hk : k = k' <;> simp [hk]

theorem localGet_get {m : ScopeMap K V} {k : K} {v : V} (h : m.localGet k = some v) : m.get k = some v := by
  unfold localGet at h
  split at h
  · cases h
  · rename_i s ss hs
    split at h
    · rename_i w hw
      cases h
      simp only [get, getIn, hs, hw]
    · cases h

theorem findMap_insert {T : Type} {m m' : ScopeMap K V} {k : K} {v : V} (h : m.insert k v = some m') (f : ScopeEntry V → Option T)
    (hv : f (.value v) = none) (hk : ∀ w, m.localGet k = some w → f (.value w) = none) (hd : f .deleted = none) (k' : K) :
    m'.findMap k' f = m.findMap k' f := by
  unfold insert at h
  split at h
  · cases h
  · rename_i s ss hs
    cases h
    simp only [findMap, findMapIn, IndexMap.get_insert, hs]
    by_cases hkk : k = k'
    · subst hkk
      simp only [if_pos, hv]
      cases hg : s.get k with
      | none => rfl
      | some e =>
        cases e with
        | value w => simp only [hk w (by simp [localGet, hs, hg])]
        | deleted => simp only [hd]
    · simp only [if_neg hkk]

theorem findMap_congr {T : Type} {f g : ScopeEntry V → Option T} (h : ∀ e, f e = g e) (m : ScopeMap K V) (k : K) :
    m.findMap k f = m.findMap k g := by
  rw [funext h]

end ScopeMap

namespace Front
open RState

/-- The result of a visit agrees with the specification: both succeed with related results, or both fail and the visit does not panic. -/
def Agrees {α β : Type} (spec : Option α) (r : M β) (post : α → β → Prop) : Prop :=
  match spec with
  | some a => ∃ b, r = .ok b ∧ post a b
  | none => ∃ err, r = .error err ∧ err ≠ .panic

theorem Agrees.bind {α β α' β' : Type} {spec : Option α} {r : M β} {post : α → β → Prop} (h : Agrees spec r post)
    {f : α → Option α'} {g : β → M β'} {post' : α' → β' → Prop} (hf : ∀ a b, post a b → Agrees (f a) (g b) post') :
    Agrees (spec >>= f) (r >>= g) post' := by
  cases spec with
  | none =>
    obtain ⟨err, rfl, he⟩ := h
    exact ⟨err, rfl, he⟩
  | some a =>
    obtain ⟨b, rfl, hb⟩ := h
    exact hf a b hb

theorem Agrees.pure {α β : Type} {post : α → β → Prop} {a : α} {b : β} (h : post a b) : Agrees (pure a) (pure b : M β) post := ⟨b, rfl, h⟩

theorem Agrees.step {α β β' : Type} {spec : Option α} {r : M β} {b : β} (hr : r = .ok b) {g : β → M β'} {post : α → β' → Prop}
    (h : Agrees spec (g b) post) : Agrees spec (r >>= g) post := by
  subst hr; exact h

theorem Agrees.mono {α β : Type} {spec : Option α} {r : M β} {post post' : α → β → Prop} (h : Agrees spec r post)
    (hp : ∀ a b, post a b → post' a b) : Agrees spec r post' := by
  cases spec with
  | none => exact h
  | some a =>
    obtain ⟨b, hb, hp'⟩ := h
    exact ⟨b, hb, hp a b hp'⟩

/-! ## Declarations -/

theorem declCtx_append (Γ : Ctx) : ∀ (ds ds' : List (Ident × RDecl)), declCtx Γ (ds ++ ds') = declCtx (declCtx Γ ds) ds'
  | [], _ => rfl
  | (x, d) :: ds, ds' => by simp only [List.cons_append, declCtx, declCtx_append _ ds ds']

theorem declCtx_not_mem {Γ : Ctx} {ds : List (Ident × RDecl)} {x : Ident} (h : x ∉ ds.map Prod.fst) : declCtx Γ ds x = Γ x := by
  induction ds generalizing Γ with
  | nil => rfl
  | cons d ds ih =>
    simp only [List.map_cons, List.mem_cons, not_or] at h
    simp only [declCtx]
    rw [ih h.2, Function.update_of_ne h.1]

theorem declCtx_mem {Γ : Ctx} {ds : List (Ident × RDecl)} {x : Ident} {d : RDecl} (hn : (ds.map Prod.fst).Nodup) (h : (x, d) ∈ ds) :
    declCtx Γ ds x = some d := by
  induction ds generalizing Γ with
  | nil => cases h
  | cons e ds ih =>
    simp only [List.map_cons, List.nodup_cons] at hn
    rcases List.mem_cons.1 h with rfl | h
    · simp only [declCtx]
      rw [declCtx_not_mem hn.1, Function.update_self]
    · simp only [declCtx]
      exact ih hn.2 h

/-- Every declaration is either an old one or one of the list. -/
theorem declCtx_or {Γ : Ctx} {ds : List (Ident × RDecl)} {x : Ident} {d : RDecl} (h : declCtx Γ ds x = some d) :
    Γ x = some d ∨ (x, d) ∈ ds := by
  induction ds generalizing Γ with
  | nil => exact .inl h
  | cons e ds ih =>
    simp only [declCtx] at h
    rcases ih h with h | h
    · by_cases hx : x = e.1
      · subst hx
        rw [Function.update_self] at h
        cases h
        exact .inr List.mem_cons_self
      · rw [Function.update_of_ne hx] at h
        exact .inl h
    · exact .inr (List.mem_cons_of_mem _ h)

theorem Fresh.left {Γ : Ctx} {ds ds' : List (Ident × RDecl)} (h : Fresh Γ (ds ++ ds')) : Fresh Γ ds :=
  ⟨(List.nodup_append.1 (List.map_append ▸ h.nodup)).1, fun d hd => h.new d (List.mem_append_left _ hd)⟩

theorem Fresh.right {Γ : Ctx} {ds ds' : List (Ident × RDecl)} (h : Fresh Γ (ds ++ ds')) : Fresh (declCtx Γ ds) ds' := by
  have hn := List.nodup_append.1 (List.map_append ▸ h.nodup)
  refine ⟨hn.2.1, fun d hd => ?_⟩
  rw [declCtx_not_mem, h.new d (List.mem_append_right _ hd)]
  intro hm
  exact hn.2.2 _ hm _ (List.mem_map_of_mem hd) rfl

theorem Fresh.old {Γ : Ctx} {ds : List (Ident × RDecl)} (h : Fresh Γ ds) {x : Ident} {d : RDecl} (hx : Γ x = some d) :
    declCtx Γ ds x = some d := by
  rw [declCtx_not_mem, hx]
  intro hm
  obtain ⟨e, he, rfl⟩ := List.mem_map.1 hm
  rw [h.new e he] at hx
  cases hx

/-- None of the declarations is an annotation. -/
def NoAnn (ds : List (Ident × RDecl)) : Prop := ∀ d ∈ ds, ∀ k, d.2 ≠ .annot k

theorem NoAnn.append {ds ds' : List (Ident × RDecl)} (h : NoAnn ds) (h' : NoAnn ds') : NoAnn (ds ++ ds') := by
  intro d hd
  rcases List.mem_append.1 hd with hd | hd
  · exact h d hd
  · exact h' d hd

theorem NoAnn.cons {x : Ident} {d : RDecl} {ds : List (Ident × RDecl)} (hd : ∀ k, d ≠ .annot k) (h : NoAnn ds) : NoAnn ((x, d) :: ds) := by
  intro e he
  rcases List.mem_cons.1 he with rfl | he
  · exact hd
  · exact h e he

theorem NoAnn.nil : NoAnn [] := fun _ h => nomatch h

mutual

theorem bindsE_noAnn : ∀ e, NoAnn (bindsE e)
  | .var _ _ => by simp only [bindsE]; exact .nil
  | .call _ _ args => by simp only [bindsE]; exact bindsL_noAnn args
  | .ite _ c a b => by simp only [bindsE]; exact (bindsE_noAnn c).append ((bindsE_noAnn a).append (bindsE_noAnn b))
  | .bin _ _ a b => by simp only [bindsE]; exact (bindsE_noAnn a).append (bindsE_noAnn b)
  | .un _ _ a => by simp only [bindsE]; exact bindsE_noAnn a
  | .cast _ a => by simp only [bindsE]; exact bindsE_noAnn a
  | .quant _ _ vs tr a => by
    simp only [bindsE]
    refine NoAnn.append ?_ ((bindsLL_noAnn tr).append (bindsE_noAnn a))
    intro d hd k
    obtain ⟨v, -, rfl⟩ := List.mem_map.1 hd
    exact fun h => nomatch h
  | .subst _ x v a => by
    simp only [bindsE]
    exact (bindsE_noAnn v).append (.cons (fun _ h => nomatch h) (bindsE_noAnn a))
  | .lit _ _ => by simp only [bindsE]; exact .nil

theorem bindsL_noAnn : ∀ es, NoAnn (bindsL es)
  | [] => by simp only [bindsL]; exact .nil
  | e :: es => by simp only [bindsL]; exact (bindsE_noAnn e).append (bindsL_noAnn es)

theorem bindsLL_noAnn : ∀ ess, NoAnn (bindsLL ess)
  | [] => by simp only [bindsLL]; exact .nil
  | es :: ess => by simp only [bindsLL]; exact (bindsL_noAnn es).append (bindsLL_noAnn ess)

end

theorem bindsArgs_noAnn (k : AnnKind) (args : List RExpr) : NoAnn (bindsArgs k args) := by
  unfold bindsArgs
  split
  · exact .nil
  · exact .cons (fun _ h => nomatch h) (bindsL_noAnn _)
  · exact (bindsE_noAnn _).append ((bindsE_noAnn _).append
      (.cons (fun _ h => nomatch h) ((bindsE_noAnn _).append (bindsE_noAnn _))))
  · exact bindsL_noAnn _

mutual

theorem bindsS_noAnn (anns : Anns) : ∀ s, NoAnn (bindsS anns s)
  | .seq ss => by simp only [bindsS]; exact bindsB_noAnn anns ss
  | .var x t none => by simp only [bindsS]; exact .cons (fun _ h => nomatch h) .nil
  | .var x t (some e) => by simp only [bindsS]; exact (bindsE_noAnn e).append (.cons (fun _ h => nomatch h) .nil)
  | .assign _ e => by simp only [bindsS]; exact bindsE_noAnn e
  | .havoc _ _ => by simp only [bindsS]; exact .nil
  | .assert _ e => by simp only [bindsS]; exact bindsE_noAnn e
  | .assume _ e => by simp only [bindsS]; exact bindsE_noAnn e
  | .compare _ e => by simp only [bindsS]; exact bindsE_noAnn e
  | .negate _ => by simp only [bindsS]; exact .nil
  | .validate _ => by simp only [bindsS]; exact .nil
  | .tick e => by simp only [bindsS]; exact bindsE_noAnn e
  | .weigh e => by simp only [bindsS]; exact bindsE_noAnn e
  | .demonic a b => by simp only [bindsS]; exact (bindsB_noAnn anns a).append (bindsB_noAnn anns b)
  | .angelic a b => by simp only [bindsS]; exact (bindsB_noAnn anns a).append (bindsB_noAnn anns b)
  | .additive a b => by simp only [bindsS]; exact (bindsB_noAnn anns a).append (bindsB_noAnn anns b)
  | .ite c a b => by simp only [bindsS]; exact (bindsE_noAnn c).append ((bindsB_noAnn anns a).append (bindsB_noAnn anns b))
  | .while c b => by simp only [bindsS]; exact (bindsE_noAnn c).append (bindsB_noAnn anns b)
  | .annot f args s => by
    simp only [bindsS]
    refine NoAnn.append ?_ (bindsS_noAnn anns s)
    split
    · exact bindsArgs_noAnn _ _
    · exact .nil
  | .label l => by simp only [bindsS]; exact .cons (fun _ h => nomatch h) .nil

theorem bindsB_noAnn (anns : Anns) : ∀ ss, NoAnn (bindsB anns ss)
  | [] => by simp only [bindsB]; exact .nil
  | s :: ss => by simp only [bindsB]; exact (bindsS_noAnn anns s).append (bindsB_noAnn anns ss)

end

theorem bindsSpecs_noAnn : ∀ ss, NoAnn (bindsSpecs ss)
  | [] => .nil
  | s :: ss => (bindsE_noAnn s.expr).append (bindsSpecs_noAnn ss)

theorem paramDecls_noAnn (p : RProc) : NoAnn (paramDecls p) := by
  intro d hd k
  rcases List.mem_append.1 hd with hd | hd <;>
  · obtain ⟨v, -, rfl⟩ := List.mem_map.1 hd
    exact fun h => nomatch h

theorem bindsProc_noAnn (anns : Anns) (p : SProc) : NoAnn (bindsProc anns p) :=
  (paramDecls_noAnn p.proc).append ((bindsSpecs_noAnn _).append (bindsB_noAnn anns _))

theorem funcParams_noAnn (ins : List Var) : NoAnn (funcParams ins) := by
  intro d hd k
  obtain ⟨v, -, rfl⟩ := List.mem_map.1 hd
  exact fun h => nomatch h

theorem bindsItem_noAnn : ∀ i, NoAnn (bindsItem i)
  | .func _ ins _ none => funcParams_noAnn ins
  | .func _ ins _ (some e) => (funcParams_noAnn ins).append (bindsE_noAnn e)
  | .ax _ e => bindsE_noAnn e

theorem itemDecls_noAnn (items : List DomItem) : NoAnn (items.map DomItem.decl) := by
  intro d hd k
  obtain ⟨i, -, rfl⟩ := List.mem_map.1 hd
  cases i <;> exact fun h => nomatch h

theorem unitDecls_noAnn (us : List RUnit) : NoAnn (us.flatMap RUnit.decl) := by
  intro d hd k
  obtain ⟨u, -, hd⟩ := List.mem_flatMap.1 hd
  cases u <;> simp only [RUnit.decl, List.mem_singleton, List.not_mem_nil] at hd <;> subst hd <;> exact fun h => nomatch h

/-! ## States and environments -/

/-- The scopes of a state represent an environment, and visible names are declared. -/
structure Rep (anns : Anns) (st : RState) (env : Env) : Prop where
  ne : st.scopes.scopes ≠ []
  vis : ∀ n, st.scopes.get n = env.vis n
  here : ∀ n, (st.scopes.localGet n).isSome = env.here n
  decl : ∀ n x, env.vis n = some x → st.ctx x ≠ none
  ann : ∀ n, st.scopes.findMap n (asAnnot st.ctx) = anns n

theorem asAnnot_declCtx {Γ : Ctx} {ds : List (Ident × RDecl)} (hf : Fresh Γ ds) (hn : NoAnn ds) (e : ScopeEntry Ident) :
    asAnnot (declCtx Γ ds) e = asAnnot Γ e := by
  cases e with
  | deleted => rfl
  | value x =>
    simp only [asAnnot]
    by_cases hm : x ∈ ds.map Prod.fst
    · obtain ⟨d, hd, rfl⟩ := List.mem_map.1 hm
      rw [declCtx_mem hf.nodup hd, hf.new d hd]
      split
      · rename_i k hk
        exact absurd (Option.some.inj hk) (hn d hd k)
      · rfl
    · rw [declCtx_not_mem hm]

theorem Rep.ctx {anns : Anns} {st : RState} {env : Env} (h : Rep anns st env) {ds : List (Ident × RDecl)} (hf : Fresh st.ctx ds)
    (hn : NoAnn ds) : Rep anns ⟨st.scopes, declCtx st.ctx ds⟩ env := by
  refine ⟨h.ne, h.vis, h.here, fun n x hx => ?_, fun n => ?_⟩
  · cases hd : st.ctx x with
    | none => exact absurd hd (h.decl n x hx)
    | some d => exact fun h0 => nomatch (hf.old hd).symm.trans h0
  · rw [ScopeMap.findMap_congr (asAnnot_declCtx hf hn)]
    exact h.ann n

theorem Rep.enter {anns : Anns} {st : RState} {env : Env} (h : Rep anns st env) : Rep anns st.enter env.sub := by
  refine ⟨(fun h => nomatch h), fun n => ?_, fun n => ?_, fun n x hx => h.decl n x hx, fun n => ?_⟩
  · rw [Env.sub, ← h.vis n]
    simp [RState.enter, ScopeMap.push, ScopeMap.get, ScopeMap.getIn, IndexMap.get]
  · simp [RState.enter, ScopeMap.push, ScopeMap.localGet, IndexMap.get, Env.sub]
  · rw [← h.ann n]
    simp [RState.enter, ScopeMap.push, ScopeMap.findMap, ScopeMap.findMapIn, IndexMap.get]

theorem leave_enter {st st' : RState} (hne : st'.scopes.scopes ≠ []) (h : st'.scopes.scopes.tail = st.scopes.scopes)
    (hs : st.scopes.scopes ≠ []) : st'.leave st.token = .ok ⟨st.scopes, st'.ctx⟩ := by
  cases st' with
  | mk m Γ =>
    cases m with
    | mk ss =>
      cases ss with
      | nil => exact absurd rfl hne
      | cons s ss =>
        simp only [List.tail_cons] at h
        have hl : st.scopes.scopes.length ≠ 0 := fun h0 => hs (List.length_eq_zero_iff.1 h0)
        simp only [RState.leave, RState.token, ScopeMap.push, ScopeMap.pop, ScopeMap.depth, ScopeMap.uncheckedPop, h, List.length_cons,
          if_true]
        rw [if_pos (by omega)]
        simp only [List.tail_cons]

/-- What a visit of declarations leaves: the scopes further out, and the new declarations. -/
structure After (anns : Anns) (st : RState) (ds : List (Ident × RDecl)) (env' : Env) (st' : RState) : Prop where
  rep : Rep anns st' env'
  tail : st'.scopes.scopes.tail = st.scopes.scopes.tail
  ctx : st'.ctx = declCtx st.ctx ds

theorem Rep.declare {anns : Anns} {st : RState} {env : Env} (h : Rep anns st env) {x : Ident} {d : RDecl} (hx : st.ctx x = none)
    (hd : ∀ k, d ≠ .annot k) : Agrees (env.bind x) (st.declare x d) (After anns st [(x, d)]) := by
  unfold Env.bind RState.declare
  obtain ⟨m, hm, ht⟩ : ∃ m, st.scopes.insert x.name x = some m ∧ m.scopes.tail = st.scopes.scopes.tail ∧ m.scopes ≠ [] := by
    unfold ScopeMap.insert
    split
    · rename_i h0; exact absurd h0 h.ne
    · rename_i s ss hs; exact ⟨_, rfl, by simp [hs], by simp⟩
  rw [hm]
  have hh := h.here x.name
  cases hl : st.scopes.localGet x.name with
  | some p =>
    rw [hl] at hh
    simp only [Option.isSome_some] at hh
    rw [if_pos hh.symm]
    have hp := h.vis x.name ▸ ScopeMap.localGet_get hl
    have hpx : p ≠ x := by
      rintro rfl
      exact h.decl _ _ hp hx
    refine ⟨.alreadyDefined x p, ?_, fun h => nomatch h⟩
    simp only [if_neg hpx]
  | none =>
    rw [hl] at hh
    simp only [Option.isSome_none] at hh
    rw [if_neg (by rw [← hh]; exact fun h => nomatch h)]
    have hf : Fresh st.ctx [(x, d)] := ⟨by simp, by simp [hx]⟩
    have hc : Function.update st.ctx x (some d) = declCtx st.ctx [(x, d)] := rfl
    refine ⟨⟨m, Function.update st.ctx x (some d)⟩, by simp [hx], ?_, ht.1, rfl⟩
    refine ⟨ht.2, fun n => ?_, fun n => ?_, fun n y hy => ?_, fun n => ?_⟩
    · simp only [ScopeMap.get_insert hm, h.vis]
      by_cases hn : x.name = n
      · subst hn; simp
      · rw [if_neg hn, Function.update_of_ne (Ne.symm hn)]
    · simp only [ScopeMap.localGet_insert hm]
      by_cases hn : x.name = n
      · subst hn; simp
      · rw [if_neg hn, Function.update_of_ne (Ne.symm hn), h.here]
    · by_cases hyx : y = x
      · subst hyx; simp
      · simp only [Function.update_of_ne hyx]
        by_cases hn : n = x.name
        · subst hn
          simp only [Function.update_self, Option.some.injEq] at hy
          exact absurd hy.symm hyx
        · simp only [Function.update_of_ne hn] at hy
          exact h.decl n y hy
    · rw [← h.ann n]
      show m.findMap n (asAnnot (Function.update st.ctx x (some d))) = _
      rw [hc, ScopeMap.findMap_congr (asAnnot_declCtx hf (.cons hd .nil))]
      refine ScopeMap.findMap_insert hm _ ?_ (fun w hw => ?_) rfl n
      · simp [asAnnot, hx]
      · rw [hl] at hw; cases hw

theorem Rep.declareAll {anns : Anns} : ∀ {ds : List (Ident × RDecl)} {st : RState} {env : Env}, Rep anns st env → Fresh st.ctx ds →
    NoAnn ds → Agrees (env.bindAll (ds.map Prod.fst)) (RState.declareAll ds st) (After anns st ds)
  | [], st, env, h, _, _ => by
    simp only [List.map_nil, Env.bindAll, RState.declareAll]
    exact ⟨st, rfl, h, rfl, rfl⟩
  | (x, d) :: ds, st, env, h, hf, hn => by
    simp only [List.map_cons, Env.bindAll, RState.declareAll]
    have hf' : Fresh st.ctx ([(x, d)] ++ ds) := hf
    refine (h.declare (hf.new _ List.mem_cons_self) (hn _ List.mem_cons_self)).bind fun env' st' ha => ?_
    refine (Rep.declareAll ha.rep (ha.ctx ▸ hf'.right) (fun d hd => hn d (List.mem_cons_of_mem _ hd))).mono
      fun env'' st'' ha' => ⟨ha'.rep, ha'.tail.trans ha.tail, ?_⟩
    rw [ha'.ctx, ha.ctx]
    rfl

theorem Rep.ident {anns : Anns} {st : RState} {env : Env} (h : Rep anns st env) (x : Ident) :
    Agrees (env.vis x.name) (RState.ident x st) fun y z => z = y := by
  unfold RState.ident
  rw [h.vis]
  cases env.vis x.name with
  | none => exact ⟨_, rfl, fun h => nomatch h⟩
  | some y => exact ⟨y, rfl, rfl⟩

theorem Rep.idents {anns : Anns} {st : RState} {env : Env} (h : Rep anns st env) :
    ∀ xs : List Ident, Agrees (env.uses xs) (RState.idents xs st) fun ys zs => zs = ys
  | [] => ⟨[], rfl, rfl⟩
  | x :: xs => by
    simp only [Env.uses, RState.idents]
    refine (h.ident x).bind fun y z hz => ?_
    refine (h.idents xs).bind fun ys zs hzs => ?_
    subst hz hzs
    exact .pure rfl

theorem Rep.annot {anns : Anns} {st : RState} {env : Env} (h : Rep anns st env) (f : Ident) :
    Agrees (anns f.name) (RState.annot f st) fun r r' => r' = r := by
  unfold RState.annot
  rw [h.ann]
  cases anns f.name with
  | none => exact ⟨_, rfl, fun h => nomatch h⟩
  | some y => exact ⟨y, rfl, rfl⟩

end Front
end Caesar
