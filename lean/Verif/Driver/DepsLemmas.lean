import Verif.Driver.DepsSpec
import Verif.Opt.RelationalCalls
import Verif.Props.C10
import Verif.Props.C72
import Verif.Slicing.TransformKeeps

/-!
# The functions called in the formula of a unit (proof infrastructure)
-/

namespace Caesar.Driver
open Smt Slicing

/-- Only functions in `N` are called. -/
def CallsIn (N : Ident → Prop) {t : Ty} (e : Expr t) : Prop := ∀ f, CallIn f e → N f

theorem callsIn_names {N : Ident → Prop} {t : Ty} {e : Expr t} (h : ∀ n ∈ callNames e, N n) : CallsIn N e :=
  fun f hf => h f ((C72_calls f e).2 hf)

theorem callIn_var {f : Ident} {t : Ty} {x : Ident} : ¬ CallIn f (.var x : Expr t) := fun h => by cases h

/-- The identifiers of an expression form a finite list. -/
theorem exists_ids {t : Ty} (e : Expr t) : ∃ D : List Ident, ∀ v, e.Occurs v → v.id ∈ D := by
  induction e with
  | @var t x => exact ⟨[x], fun v hv => by cases hv; exact List.mem_singleton_self _⟩
  | lit _ => exact ⟨[], fun _ h => h.elim⟩
  | call f args ih =>
    choose D hD using ih
    exact ⟨(List.ofFn D).flatten, fun v ⟨i, hv⟩ => List.mem_flatten.2 ⟨D i, List.mem_ofFn.2 ⟨i, rfl⟩, hD i v hv⟩⟩
  | ite _ _ _ ih1 ih2 ih3 =>
    obtain ⟨D1, h1⟩ := ih1
    obtain ⟨D2, h2⟩ := ih2
    obtain ⟨D3, h3⟩ := ih3
    refine ⟨D1 ++ (D2 ++ D3), fun v hv => ?_⟩
    rcases hv with h | h | h
    · exact List.mem_append_left _ (h1 v h)
    · exact List.mem_append_right _ (List.mem_append_left _ (h2 v h))
    · exact List.mem_append_right _ (List.mem_append_right _ (h3 v h))
  | bin _ _ _ ih1 ih2 =>
    obtain ⟨D1, h1⟩ := ih1
    obtain ⟨D2, h2⟩ := ih2
    exact ⟨D1 ++ D2, fun v hv => hv.elim (fun h => List.mem_append_left _ (h1 v h)) fun h => List.mem_append_right _ (h2 v h)⟩
  | rel _ _ _ ih1 ih2 =>
    obtain ⟨D1, h1⟩ := ih1
    obtain ⟨D2, h2⟩ := ih2
    exact ⟨D1 ++ D2, fun v hv => hv.elim (fun h => List.mem_append_left _ (h1 v h)) fun h => List.mem_append_right _ (h2 v h)⟩
  | un _ _ ih => exact ih
  | embed _ ih => exact ih
  | iverson _ ih => exact ih
  | cast _ _ ih => exact ih
  | quant _ _ vs _ ih =>
    obtain ⟨D1, h1⟩ := ih
    refine ⟨vs.map (fun q => q.var.id) ++ D1, fun v hv => ?_⟩
    rcases hv with h | h
    · exact List.mem_append_right _ (h1 v h)
    · obtain ⟨q, hq, rfl⟩ := List.mem_map.1 h
      exact List.mem_append_left _ (List.mem_map.2 ⟨q, hq, rfl⟩)
  | subst x _ _ ih1 ih2 =>
    obtain ⟨D1, h1⟩ := ih1
    obtain ⟨D2, h2⟩ := ih2
    refine ⟨x.id :: (D1 ++ D2), fun v hv => ?_⟩
    rcases hv with h | h | h
    · exact List.mem_cons_of_mem _ (List.mem_append_left _ (h1 v h))
    · exact List.mem_cons_of_mem _ (List.mem_append_right _ (h2 v h))
    · cases h; exact List.mem_cons_self

theorem clean_of_calls {D : List Ident} {N : Ident → Prop} {t : Ty} (e : Expr t) (h1 : ∀ v, e.Occurs v → v.id ∈ D) (h2 : CallsIn N e) :
    e.Clean ⟨True, fun _ => True, D, N⟩ := by
  induction e with
  | @var t x => exact h1 ⟨x, t⟩ rfl
  | lit _ => exact trivial
  | call f args ih => exact ⟨h2 _ (.here f args rfl), fun i => ih i (fun v hv => h1 v ⟨i, hv⟩) fun g hg => h2 g (.arg f args i hg)⟩
  | ite c a b ih1 ih2 ih3 =>
    exact ⟨ih1 (fun v hv => h1 v (.inl hv)) fun g hg => h2 g (.cond _ _ _ hg), ih2 (fun v hv => h1 v (.inr (.inl hv))) fun g hg => h2 g (.then _ _ _ hg),
      ih3 (fun v hv => h1 v (.inr (.inr hv))) fun g hg => h2 g (.else _ _ _ hg)⟩
  | bin _ a b ih1 ih2 => exact ⟨ih1 (fun v hv => h1 v (.inl hv)) fun g hg => h2 g (.binL _ _ _ hg), ih2 (fun v hv => h1 v (.inr hv)) fun g hg => h2 g (.binR _ _ _ hg)⟩
  | rel _ a b ih1 ih2 =>
    exact ⟨fun _ => trivial, ih1 (fun v hv => h1 v (.inl hv)) fun g hg => h2 g (.relL _ _ _ hg), ih2 (fun v hv => h1 v (.inr hv)) fun g hg => h2 g (.relR _ _ _ hg)⟩
  | un _ _ ih => exact ih (fun v hv => h1 v hv) fun g hg => h2 g (.un _ _ hg)
  | embed _ ih => exact ih (fun v hv => h1 v hv) fun g hg => h2 g (.embed _ hg)
  | iverson _ ih => exact ih (fun v hv => h1 v hv) fun g hg => h2 g (.iverson _ hg)
  | cast _ _ ih => exact ih (fun v hv => h1 v hv) fun g hg => h2 g (.cast _ _ hg)
  | quant _ _ vs _ ih => exact ⟨fun q hq => ⟨fun _ => trivial, h1 q.var (.inr (List.mem_map.2 ⟨q, hq, rfl⟩))⟩, ih (fun v hv => h1 v (.inl hv)) fun g hg => h2 g (.quant _ _ _ _ hg)⟩
  | subst x _ _ ih1 ih2 =>
    exact ⟨h1 x (.inr (.inr rfl)), ih1 (fun v hv => h1 v (.inl hv)) fun g hg => h2 g (.substE _ _ _ hg), ih2 (fun v hv => h1 v (.inr (.inl hv))) fun g hg => h2 g (.substA _ _ _ hg)⟩

theorem calls_of_clean {K : Lang} {t : Ty} (e : Expr t) (h : e.Clean K) : CallsIn K.funcs e := by
  intro f hf
  induction hf with
  | here f args hn => exact hn ▸ h.1
  | arg f args i _ ih => exact ih (h.2 i)
  | cond _ _ _ _ ih => exact ih h.1
  | «then» _ _ _ _ ih => exact ih h.2.1
  | «else» _ _ _ _ ih => exact ih h.2.2
  | binL _ _ _ _ ih => exact ih h.1
  | binR _ _ _ _ ih => exact ih h.2
  | relL _ _ _ _ ih => exact ih h.2.1
  | relR _ _ _ _ ih => exact ih h.2.2
  | un _ _ _ ih => exact ih h
  | embed _ _ ih => exact ih h
  | iverson _ _ ih => exact ih h
  | cast _ _ _ ih => exact ih h
  | quant _ _ _ _ _ ih => exact ih h.2
  | substE _ _ _ _ ih => exact ih h.2.1
  | substA _ _ _ _ ih => exact ih h.2.2

theorem all_mono {P Q : {t : Ty} → Expr t → Prop} {V W : Var → Prop} (h : ∀ {t : Ty} (e : Expr t), P e → Q e) (hV : ∀ x, V x → W x) {S : Stmt} :
    S.All P V → S.All Q W := by
  induction S with
  | seq a b iha ihb => exact fun h1 => ⟨iha h1.1, ihb h1.2⟩
  | varInit x e => exact fun h1 => ⟨hV _ h1.1, h e h1.2⟩
  | assign x e => exact fun h1 => ⟨hV _ h1.1, h e h1.2⟩
  | sample b x d =>
    intro h1
    cases d with
    | flip p => exact ⟨hV _ h1.1, h p h1.2⟩
    | _ => exact ⟨hV _ h1.1, trivial⟩
  | havoc d xs => exact fun h1 x hx => hV x (h1 x hx)
  | assert d e | assume d e | compare d e | tick e | weigh e => exact fun h1 => h e h1
  | demonic a b iha ihb | angelic a b iha ihb | additive a b iha ihb => exact fun h1 => ⟨iha h1.1, ihb h1.2⟩
  | ite c a b iha ihb => exact fun h1 => ⟨h c h1.1, iha h1.2.1, ihb h1.2.2⟩
  | annot an s ih => exact fun h1 => ih h1
  | _ => exact fun _ => trivial

/-- The identifiers of a statement form a finite list. -/
theorem exists_stmt_ids (S : Stmt) : ∃ D : List Ident, S.All (fun e => ∀ v, e.Occurs v → v.id ∈ D) (fun x => x.id ∈ D) := by
  have two : ∀ {a b : Stmt}, (∃ D : List Ident, a.All (fun e => ∀ v, e.Occurs v → v.id ∈ D) (fun x => x.id ∈ D)) →
      (∃ D : List Ident, b.All (fun e => ∀ v, e.Occurs v → v.id ∈ D) (fun x => x.id ∈ D)) →
      ∃ D : List Ident, a.All (fun e => ∀ v, e.Occurs v → v.id ∈ D) (fun x => x.id ∈ D) ∧ b.All (fun e => ∀ v, e.Occurs v → v.id ∈ D) (fun x => x.id ∈ D) := by
    rintro a b ⟨D1, h1⟩ ⟨D2, h2⟩
    exact ⟨D1 ++ D2, all_mono (fun e h v hv => List.mem_append_left _ (h v hv)) (fun x h => List.mem_append_left _ h) h1,
      all_mono (fun e h v hv => List.mem_append_right _ (h v hv)) (fun x h => List.mem_append_right _ h) h2⟩
  have var : ∀ (x : Var) {t : Ty} (e : Expr t), ∃ D : List Ident, x.id ∈ D ∧ ∀ v, e.Occurs v → v.id ∈ D := by
    intro x t e
    obtain ⟨D, h⟩ := exists_ids e
    exact ⟨x.id :: D, List.mem_cons_self, fun v hv => List.mem_cons_of_mem _ (h v hv)⟩
  induction S with
  | seq a b iha ihb => exact two iha ihb
  | varInit x e => exact var x e
  | assign x e => exact var x e
  | sample b x d =>
    cases d with
    | flip p => exact var ⟨x, .bool⟩ p
    | _ => exact ⟨[x], List.mem_singleton_self _, trivial⟩
  | havoc d xs => exact ⟨xs.map (·.id), fun x hx => List.mem_map.2 ⟨x, hx, rfl⟩⟩
  | assert d e | assume d e | compare d e | tick e | weigh e => exact exists_ids e
  | demonic a b iha ihb | angelic a b iha ihb | additive a b iha ihb => exact two iha ihb
  | ite c a b iha ihb =>
    obtain ⟨D1, h1⟩ := exists_ids c
    obtain ⟨D2, h2, h3⟩ := two iha ihb
    exact ⟨D1 ++ D2, fun v hv => List.mem_append_left _ (h1 v hv), all_mono (fun e h v hv => List.mem_append_right _ (h v hv)) (fun x h => List.mem_append_right _ h) h2,
      all_mono (fun e h v hv => List.mem_append_right _ (h v hv)) (fun x h => List.mem_append_right _ h) h3⟩
  | annot an s ih => exact ih
  | _ => exact ⟨[], trivial⟩

/-! ## The stages -/

theorem closed_calls (N : Ident → Prop) : Closed (fun e => CallsIn N e) (fun _ => True) where
  ite c a b hc ha hb f hf := by
    cases hf with
    | cond _ _ _ h => exact hc f h
    | «then» _ _ _ h => exact ha f h
    | «else» _ _ _ h => exact hb f h
  var x _ f hf := (callIn_var hf).elim
  top f hf := nomatch hf
  bot f hf := nomatch hf
  one f hf := nomatch hf

theorem transform_calls {N : Ident → Prop} {S : Stmt} (h : S.All (fun e => CallsIn N e) (fun _ => True)) (filter : Selection) (tcx : TyCtx) (d : Dir) :
    (transform filter tcx d S).1.All (fun e => CallsIn N e) (fun _ => True) :=
  (visit_keeps filter S {} { tcx := tcx, dir := d }).all _ _ (closed_calls N) (fun _ _ f hf => (callIn_var hf).elim) h

theorem optBool_clean {K : Lang} (hK : ∀ t, K.cmp t) {opts : LowerOptions} {n : Nat} {b b' : Expr .bool} (hb : b.Clean K) (h : optBool opts n b = some b') : b'.Clean K := by
  obtain ⟨b1, h1, h2⟩ := Option.bind_eq_some_iff.1 h
  have c0 : (parensStep opts b).Clean K := by
    unfold parensStep
    split
    · exact removeParensAux_clean b true hb
    · exact hb
  have c1 : b1.Clean K := by
    unfold boolifyStep at h1
    split at h1
    · cases h1; exact c0
    · exact (boolify_clean n).1 _ c0 b1 h1
  unfold relationalStep at h2
  split at h2
  · exact relational_clean hK b1 c1 b' h2
  · cases h2; exact c1

/-- Lowering calls no new functions. -/
theorem lowerQuant_calls {N : Ident → Prop} {o : Oracle} {span span' span'' : Nat} {opts : LowerOptions} {n : Nat} {d : Dir} {e : Expr .eureal} (he : CallsIn N e)
    {s s' : UState} {b : Expr .bool} (h : lowerQuant o span span' span'' opts n d e s = some (b, s')) : CallsIn N b := by
  obtain ⟨D, hD⟩ := exists_ids e
  obtain ⟨⟨e1, s1⟩, h1, h⟩ := Option.bind_eq_some_iff.1 h
  obtain ⟨⟨e2, s2⟩, h2, h⟩ := Option.bind_eq_some_iff.1 h
  obtain ⟨b', h3, h4⟩ := Option.map_eq_some_iff.1 h
  cases h4
  let K : Lang := ⟨True, fun _ => True, D ++ (s1.1.decls ++ s'.1.decls), N⟩
  have c0 : e.Clean K := clean_of_calls e (fun v hv => List.mem_append_left _ (hD v hv)) he
  have c1 : e1.Clean K := by
    have step : Par K.decls (unfoldStep o span opts e) fun e' => e.Clean K → e'.Clean K := by
      unfold unfoldStep
      split
      · exact (applySubst_clean span e .empty).lift.imp fun _ h he => h SubstFrame.Clean.empty he
      · exact (unfold_clean o span e {} .empty).imp fun _ h he => h SubstFrame.Clean.empty he
    exact (step s e1 s1 h1).2 (fun x hx => List.mem_append_right _ (List.mem_append_left _ hx)) c0
  have c2 : e2.Clean K := by
    have step : Par K.decls (qelimStep span' span'' opts d e1) fun e' => e1.Clean K → e'.Clean K := by
      unfold qelimStep
      split
      · exact Par.pure fun h => h
      · exact (qelimPass_clean span' span'' e1 d).lift
    exact (step s1 e2 s' h2).2 (fun x hx => List.mem_append_right _ (List.mem_append_right _ hx)) c1
  have c3 : (intoBoolVc d e2).Clean K := by
    cases d with
    | down => exact ⟨fun _ => trivial, topLit_clean rfl, c2⟩
    | up => exact ⟨fun _ => trivial, topLit_clean rfl, c2⟩
  exact calls_of_clean b (optBool_clean (fun _ => trivial) c3 h3)

theorem coreVc_calls {N : Ident → Prop} {S : Stmt} (hS : S.All (fun e => CallsIn N e) (fun _ => True)) {d : Dir} {e : Expr .eureal} (h : coreVc d S = .ok e) :
    CallsIn N e := by
  obtain ⟨D, hD⟩ := exists_stmt_ids S
  have hc : S.All (fun e => e.Clean ⟨True, fun _ => True, D, N⟩) (fun x => x.id ∈ D) := hD.and (fun e h1 h2 => clean_of_calls e h1 h2) hS
  exact calls_of_clean e (vcgen_clean (K := ⟨True, fun _ => True, D, N⟩) h hc (by cases d <;> exact topLit_clean rfl))

/-! ## Calls of procedures -/

theorem all_block {P : {t : Ty} → Expr t → Prop} {V : Var → Prop} {l : List Stmt} (h : ∀ s ∈ l, s.All P V) : (Stmt.block l).All P V := by
  induction l with
  | nil => exact trivial
  | cons s l ih => exact ⟨h s List.mem_cons_self, ih fun s' hs => h s' (List.mem_cons_of_mem _ hs)⟩

theorem substPairs_calls {N : Ident → Prop} (pairs : List ((x : Var) × Expr x.ty)) : ∀ e : Expr .eureal, CallsIn N e → (∀ p ∈ pairs, CallsIn N p.2) →
    CallsIn N (substPairs e pairs) := by
  induction pairs with
  | nil => exact fun e h _ => h
  | cons p ps ih =>
    intro e he hp
    refine ih (.subst p.1 p.2 e) ?_ fun q hq => hp q (List.mem_cons_of_mem _ hq)
    intro f hf
    cases hf with
    | substE _ _ _ h => exact hp p List.mem_cons_self f h
    | substA _ _ _ h => exact he f h

theorem zipArgs_calls {N : Ident → Prop} (xs : List Var) : ∀ args : List ((t : Ty) × Expr t), (∀ a ∈ args, CallsIn N a.2) → ∀ p ∈ zipArgs xs args, CallsIn N p.2 := by
  induction xs with
  | nil => exact fun args _ p hp => nomatch hp
  | cons x xs ih =>
    intro args ha p hp
    cases args with
    | nil => nomatch hp
    | cons a as =>
      obtain ⟨t, e⟩ := a
      have htl := ih as fun b hb => ha b (List.mem_cons_of_mem _ hb)
      unfold zipArgs at hp
      split at hp
      next h =>
        subst h
        rcases List.mem_cons.1 hp with rfl | hp
        · exact ha ⟨_, e⟩ List.mem_cons_self
        · exact htl p hp
      next => exact htl p hp

theorem stableInputs_calls {N : Ident → Prop} (free : List Var) (ps : List Param) : ∀ (declared : List Var) (args : List ((t : Ty) × Expr t)),
    (∀ a ∈ args, CallsIn N a.2) → (∀ s ∈ (stableInputs free declared ps args).1, s.All (fun e => CallsIn N e) (fun _ => True)) ∧
      ∀ p ∈ (stableInputs free declared ps args).2.1, CallsIn N p.2 := by
  induction ps with
  | nil => exact fun declared args _ => ⟨fun s hs => (nomatch hs), fun p hp => (nomatch hp)⟩
  | cons q ps ih =>
    intro declared args ha
    cases args with
    | nil => exact ⟨fun s hs => (nomatch hs), fun p hp => (nomatch hp)⟩
    | cons a as =>
      obtain ⟨t, e⟩ := a
      have htl := fun declared => ih declared as fun b hb => ha b (List.mem_cons_of_mem _ hb)
      have he := ha ⟨t, e⟩ List.mem_cons_self
      unfold stableInputs
      split
      next h =>
        subst h
        split
        · dsimp only
          refine ⟨fun s hs => ?_, fun p hp => ?_⟩
          · rcases List.mem_cons.1 hs with rfl | hs
            · unfold assignToTemp
              split <;> exact ⟨trivial, he⟩
            · exact (htl _).1 s hs
          · rcases List.mem_cons.1 hp with rfl | hp
            · exact fun f hf => (callIn_var hf).elim
            · exact (htl _).2 p hp
        · dsimp only
          refine ⟨(htl _).1, fun p hp => ?_⟩
          rcases List.mem_cons.1 hp with rfl | hp
          · exact he
          · exact (htl _).2 p hp
      next => exact htl _

theorem encodeAssign_calls {N : Ident → Prop} (declared : List Var) (p : Proc) (lhs : List Var) (args : List ((t : Ty) × Expr t))
    (hr : ∀ e ∈ p.requires, CallsIn N e) (he : ∀ e ∈ p.ensures, CallsIn N e) (ha : ∀ a ∈ args, CallsIn N a.2) :
    ∀ s ∈ (encodeAssign declared p lhs args).1, s.All (fun e => CallsIn N e) (fun _ => True) := by
  intro s hs
  unfold encodeAssign at hs
  dsimp only at hs
  have hst := stableInputs_calls (N := N) p.ensuresVars p.inputs declared args ha
  rcases List.mem_append.1 hs with hs | hs
  · rcases List.mem_append.1 hs with hs | hs
    · rcases List.mem_append.1 hs with hs | hs
      · obtain ⟨e, h1, rfl⟩ := List.mem_map.1 hs
        exact substPairs_calls _ e (hr e h1) (zipArgs_calls _ _ ha)
      · exact hst.1 s hs
    · obtain rfl := List.mem_singleton.1 hs
      exact fun _ _ => trivial
  · obtain ⟨e, h1, rfl⟩ := List.mem_map.1 hs
    refine substPairs_calls _ e (he e h1) fun q hq => ?_
    rcases List.mem_append.1 hq with hq | hq
    · exact hst.2 q hq
    · refine zipArgs_calls p.outputs _ (fun a ha => ?_) q hq
      obtain ⟨x, -, rfl⟩ := List.mem_map.1 ha
      exact fun f hf => (callIn_var hf).elim

/-- The graph gets the functions in all expressions and all called procedures. -/
theorem mem_stmtNames {n : Ident} {T : Stmt} (h : (∃ e ∈ exprsOf T, CallIn n e.2) ∨ n ∈ calleesOf T) : n ∈ stmtNames T := by
  have two : ∀ {a b : Stmt}, ((∃ e ∈ exprsOf a, CallIn n e.2) ∨ n ∈ calleesOf a → n ∈ stmtNames a) → ((∃ e ∈ exprsOf b, CallIn n e.2) ∨ n ∈ calleesOf b → n ∈ stmtNames b) →
      (∃ e ∈ exprsOf a ++ exprsOf b, CallIn n e.2) ∨ n ∈ calleesOf a ++ calleesOf b → n ∈ stmtNames a ++ stmtNames b := by
    rintro a b ha hb (⟨e, he, hn⟩ | hn)
    · rcases List.mem_append.1 he with he | he
      · exact List.mem_append_left _ (ha (.inl ⟨e, he, hn⟩))
      · exact List.mem_append_right _ (hb (.inl ⟨e, he, hn⟩))
    · rcases List.mem_append.1 hn with hn | hn
      · exact List.mem_append_left _ (ha (.inr hn))
      · exact List.mem_append_right _ (hb (.inr hn))
  have one : ∀ {t : Ty} {x : Expr t} {l : List Ident}, (∃ e ∈ [(⟨t, x⟩ : (t : Ty) × Expr t)], CallIn n e.2) ∨ n ∈ ([] : List Ident) → n ∈ callNames x := by
    rintro t x l (⟨e, he, hn⟩ | hn)
    · obtain rfl := List.mem_singleton.1 he
      exact (C72_calls n x).2 hn
    · nomatch hn
  induction T with
  | seq a b iha ihb | demonic a b iha ihb | angelic a b iha ihb | additive a b iha ihb => exact two iha ihb h
  | varInit x e | assign x e | assert d e | assume d e | compare d e | tick e | weigh e => exact one (l := []) h
  | sample b x d =>
    cases d with
    | flip p => exact one (l := []) h
    | _ => rcases h with ⟨e, he, -⟩ | h <;> contradiction
  | call isDecl lhs f args =>
    rcases h with ⟨e, he, hn⟩ | h
    · exact List.mem_cons_of_mem _ (List.mem_flatMap.2 ⟨e, he, (C72_calls n e.2).2 hn⟩)
    · obtain rfl := List.mem_singleton.1 h
      exact List.mem_cons_self
  | ite c a b iha ihb =>
    show n ∈ callNames c ++ stmtNames a ++ stmtNames b
    rw [List.append_assoc]
    rcases h with ⟨e, he, hn⟩ | h
    · rcases List.mem_cons.1 he with rfl | he
      · exact List.mem_append_left _ ((C72_calls n _).2 hn)
      · exact List.mem_append_right _ (two iha ihb (.inl ⟨e, he, hn⟩))
    · exact List.mem_append_right _ (two iha ihb (.inr h))
  | «while» c s ih =>
    rcases h with ⟨e, he, hn⟩ | h
    · rcases List.mem_cons.1 he with rfl | he
      · exact List.mem_append_left _ ((C72_calls n _).2 hn)
      · exact List.mem_append_right _ (ih (.inl ⟨e, he, hn⟩))
    · exact List.mem_append_right _ (ih (.inr h))
  | annot an s ih => exact List.mem_append_right _ (ih h)
  | _ => rcases h with ⟨e, he, -⟩ | h <;> contradiction

theorem specCall_calls {N M : Ident → Prop} {procs : ProcTable} (hN : ∀ f p, procs f = some p → M f → ∀ e, e ∈ p.requires ∨ e ∈ p.ensures → CallsIn N e) {d : Dir} (T : Stmt) :
    ∀ {declared declared' : List Var} {S : Stmt}, (∀ e ∈ exprsOf T, CallsIn N e.2) → (∀ f ∈ calleesOf T, M f) → specCall procs d T declared = some (S, declared') →
      S.All (fun e => CallsIn N e) (fun _ => True) := by
  have two : ∀ {a b : Stmt} {declared declared' : List Var} {S : Stmt} (k : Stmt → Stmt → Stmt),
      (∀ {declared declared' : List Var} {S : Stmt}, (∀ e ∈ exprsOf a, CallsIn N e.2) → (∀ f ∈ calleesOf a, M f) → specCall procs d a declared = some (S, declared') → S.All (fun e => CallsIn N e) (fun _ => True)) →
      (∀ {declared declared' : List Var} {S : Stmt}, (∀ e ∈ exprsOf b, CallsIn N e.2) → (∀ f ∈ calleesOf b, M f) → specCall procs d b declared = some (S, declared') → S.All (fun e => CallsIn N e) (fun _ => True)) →
      (∀ e ∈ exprsOf a ++ exprsOf b, CallsIn N e.2) → (∀ f ∈ calleesOf a ++ calleesOf b, M f) →
      (do let (a, declared) ← specCall procs d a declared; let (b, declared) ← specCall procs d b declared; return (k a b, declared) : Option (Stmt × List Var)) = some (S, declared') →
      ∃ a' b', S = k a' b' ∧ a'.All (fun e => CallsIn N e) (fun _ => True) ∧ b'.All (fun e => CallsIn N e) (fun _ => True) := by
    intro a b declared declared' S k iha ihb hn hm h
    obtain ⟨⟨a', d1⟩, h1, h⟩ := Option.bind_eq_some_iff.1 h
    obtain ⟨⟨b', d2⟩, h2, h⟩ := Option.bind_eq_some_iff.1 h
    cases h
    exact ⟨a', b', rfl, iha (fun n h => hn n (List.mem_append_left _ h)) (fun n h => hm n (List.mem_append_left _ h)) h1,
      ihb (fun n h => hn n (List.mem_append_right _ h)) (fun n h => hm n (List.mem_append_right _ h)) h2⟩
  induction T with
  | call isDecl lhs f args =>
    intro declared declared' S hn hm h
    unfold specCall at h
    split at h
    next => cases h; exact trivial
    next p hp =>
      have hf := hm f (List.mem_singleton_self f)
      have hb := encodeAssign_calls (N := N) declared p lhs args (fun e he => hN f p hp hf e (.inl he)) (fun e he => hN f p hp hf e (.inr he)) hn
      split at h
      · cases h
        refine all_block fun s hs => ?_
        rcases List.mem_append.1 hs with hs | hs
        · obtain ⟨x, -, rfl⟩ := List.mem_map.1 hs
          exact trivial
        · exact hb s hs
      · split at h
        · cases h
        · cases h
          exact all_block hb
  | seq a b iha ihb => intro declared declared' S hn hm h; obtain ⟨a', b', rfl, h1, h2⟩ := two Stmt.seq iha ihb hn hm h; exact ⟨h1, h2⟩
  | demonic a b iha ihb => intro declared declared' S hn hm h; obtain ⟨a', b', rfl, h1, h2⟩ := two Stmt.demonic iha ihb hn hm h; exact ⟨h1, h2⟩
  | angelic a b iha ihb => intro declared declared' S hn hm h; obtain ⟨a', b', rfl, h1, h2⟩ := two Stmt.angelic iha ihb hn hm h; exact ⟨h1, h2⟩
  | additive a b iha ihb => intro declared declared' S hn hm h; obtain ⟨a', b', rfl, h1, h2⟩ := two Stmt.additive iha ihb hn hm h; exact ⟨h1, h2⟩
  | ite c a b iha ihb =>
    intro declared declared' S hn hm h
    obtain ⟨a', b', rfl, h1, h2⟩ := two (Stmt.ite c) iha ihb (fun e he => hn e (List.mem_cons_of_mem _ he)) hm h
    exact ⟨hn ⟨_, c⟩ List.mem_cons_self, h1, h2⟩
  | «while» c s ih =>
    intro declared declared' S hn hm h
    obtain ⟨⟨s', d1⟩, h1, h⟩ := Option.bind_eq_some_iff.1 h
    cases h
    exact trivial
  | annot an s ih =>
    intro declared declared' S hn hm h
    obtain ⟨⟨s', d1⟩, h1, h⟩ := Option.bind_eq_some_iff.1 h
    cases h
    show s'.All _ _
    exact ih hn hm h1
  | varInit x e => intro declared declared' S hn hm h; cases h; exact ⟨trivial, hn _ (List.mem_singleton_self _)⟩
  | assign x e => intro declared declared' S hn hm h; cases h; exact ⟨trivial, hn _ (List.mem_singleton_self _)⟩
  | sample b x dd =>
    intro declared declared' S hn hm h
    cases h
    cases dd with
    | flip p => exact ⟨trivial, hn _ (List.mem_singleton_self _)⟩
    | _ => exact ⟨trivial, trivial⟩
  | havoc d xs => intro declared declared' S hn hm h; cases h; exact fun _ _ => trivial
  | assert d e | assume d e | compare d e | tick e | weigh e => intro declared declared' S hn hm h; cases h; exact hn _ (List.mem_singleton_self _)
  | _ => intro declared declared' S hn hm h; cases h; exact trivial

/-- The formula of a unit calls only functions which are called in the statement or in specifications of procedures called in it. -/
theorem formula_calls {N M : Ident → Prop} {c : UnitCtx} (hN : ∀ f p, c.procs f = some p → M f → ∀ e, e ∈ p.requires ∨ e ∈ p.ensures → CallsIn N e) {T : Stmt}
    (hT : ∀ e ∈ exprsOf T, CallsIn N e.2) (hM : ∀ f ∈ calleesOf T, M f) {opts : UnitOptions} {n : Nat} {d : Dir} {b : Expr .bool} {st : St}
    (h : c.formula opts n d T = some (b, st)) : CallsIn N b := by
  obtain ⟨⟨S, st'⟩, h1, h⟩ := Option.bind_eq_some_iff.1 h
  obtain ⟨⟨S', declared'⟩, h2, h3⟩ := Option.map_eq_some_iff.1 h1
  obtain ⟨e, he, h⟩ := Option.bind_eq_some_iff.1 h
  obtain ⟨⟨b', s'⟩, h4, h⟩ := Option.bind_eq_some_iff.1 h
  cases h
  have hS := transform_calls (specCall_calls hN T hT hM h2) opts.selection c.tcx d
  have h3' : transform opts.selection c.tcx d S' = (S, st) := h3
  rw [h3'] at hS
  refine lowerQuant_calls (coreVc_calls hS (d := d) ?_) h4
  cases hv : coreVc d S with
  | error x => rw [hv] at he; cases he
  | ok e' => rw [hv] at he; cases he; rfl

end Caesar.Driver
