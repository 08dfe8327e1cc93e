import Verif.Opt.Unfolder
import Verif.Opt.Qelim
import Verif.Opt.Boolify
import Verif.Opt.RemoveParens
import Verif.Opt.QelimSpec
import Verif.Props.C08
import Verif.Props.C06

/-!
# The passes introduce no `Fresh` quantifiers and no comparisons of other types (proof infrastructure)
-/

namespace Caesar

/-- Which expressions are allowed: may quantifiers bind `Fresh` variables, for which operand types may there be comparisons `<=`, `>=`, `==`,
which identifiers may occur (free or bound), and which functions may be called. -/
structure Lang where
  fresh : Prop
  cmp : Ty → Prop
  decls : List Ident
  funcs : Ident → Prop

/-- The expression is in the language. -/
def Expr.Clean (K : Lang) : {t : Ty} → Expr t → Prop
  | _, .var x => x ∈ K.decls
  | _, .lit _ => True
  | _, .call f args => K.funcs f.name ∧ ∀ i, (args i).Clean K
  | _, .ite c a b => c.Clean K ∧ a.Clean K ∧ b.Clean K
  | _, .bin _ a b => a.Clean K ∧ b.Clean K
  | _, .rel (s := s) op a b => (op.rewritten = true → K.cmp s) ∧ a.Clean K ∧ b.Clean K
  | _, .un _ a => a.Clean K
  | _, .embed a => a.Clean K
  | _, .iverson a => a.Clean K
  | _, .cast _ a => a.Clean K
  | _, .quant _ _ vs a => (∀ q ∈ vs, (q.fresh = true → K.fresh) ∧ q.var.id ∈ K.decls) ∧ a.Clean K
  | _, .subst x e a => x.id ∈ K.decls ∧ e.Clean K ∧ a.Clean K

theorem app {α : Type} (l l' : List α) (h : l ++ l' ≠ []) : l ≠ [] ∨ l' ≠ [] := by
  cases l
  · exact .inr h
  · exact .inl (by simp)

theorem appl {α : Type} (l l' : List α) (h : l ≠ []) : l ++ l' ≠ [] := fun hn => h (List.append_eq_nil_iff.1 hn).1
theorem appr {α : Type} (l l' : List α) (h : l' ≠ []) : l ++ l' ≠ [] := fun hn => h (List.append_eq_nil_iff.1 hn).2

/-- Allowing more functions. -/
theorem Expr.Clean.anyFuncs {K : Lang} {t : Ty} (e : Expr t) : e.Clean K → e.Clean { K with funcs := fun _ => True } := by
  induction e with
  | var _ => exact id
  | lit _ => exact id
  | call f args ih => exact fun h => ⟨trivial, fun i => ih i (h.2 i)⟩
  | ite _ _ _ ih1 ih2 ih3 => exact fun h => ⟨ih1 h.1, ih2 h.2.1, ih3 h.2.2⟩
  | bin _ _ _ ih1 ih2 => exact fun h => ⟨ih1 h.1, ih2 h.2⟩
  | rel _ _ _ ih1 ih2 => exact fun h => ⟨h.1, ih1 h.2.1, ih2 h.2.2⟩
  | un _ _ ih => exact ih
  | embed _ ih => exact ih
  | iverson _ ih => exact ih
  | cast _ _ ih => exact ih
  | quant _ _ _ _ ih => exact fun h => ⟨h.1, ih h.2⟩
  | subst _ _ _ ih1 ih2 => exact fun h => ⟨h.1, ih1 h.2.1, ih2 h.2.2⟩

theorem Expr.clean_iff (K : Lang) (hK : ∀ f, K.funcs f) {t : Ty} (e : Expr t) :
    e.Clean K ↔ (e.freshVars ≠ [] → K.fresh) ∧ e.CmpTypes K.cmp ∧ ∀ v, e.Occurs v → v.id ∈ K.decls := by
  induction e with
  | @var t x => exact ⟨fun h => ⟨fun h => (h rfl).elim, trivial, fun v hv => hv ▸ h⟩, fun h => h.2.2 ⟨x, t⟩ rfl⟩
  | lit x => exact ⟨fun _ => ⟨fun h => (h rfl).elim, trivial, fun _ h => h.elim⟩, fun _ => trivial⟩
  | call f args ih =>
    constructor
    · rintro ⟨-, h⟩
      refine ⟨fun hf => ?_, fun i => ((ih i).1 (h i)).2.1, fun v ⟨i, hv⟩ => ((ih i).1 (h i)).2.2 v hv⟩
      have : ∃ i, (args i).freshVars ≠ [] := by
        by_contra hn
        push Not at hn
        exact hf (List.flatMap_eq_nil_iff.2 fun i _ => hn i)
      obtain ⟨i, hi⟩ := this
      exact ((ih i).1 (h i)).1 hi
    · intro h
      refine ⟨hK _, fun i => ?_⟩
      refine (ih i).2 ⟨fun hf => h.1 fun hn => hf (List.flatMap_eq_nil_iff.1 hn i (List.mem_finRange i)), h.2.1 i, fun v hv => h.2.2 v ⟨i, hv⟩⟩
  | ite c a b ih1 ih2 ih3 =>
    constructor
    · intro h
      have h1 := ih1.1 h.1
      have h2 := ih2.1 h.2.1
      have h3 := ih3.1 h.2.2
      exact ⟨fun hf => (app _ _ hf).elim h1.1 fun hf => (app _ _ hf).elim h2.1 h3.1, ⟨h1.2.1, h2.2.1, h3.2.1⟩,
        fun v hv => hv.elim (h1.2.2 v) fun hv => hv.elim (h2.2.2 v) (h3.2.2 v)⟩
    · intro h
      exact ⟨ih1.2 ⟨fun hf => h.1 (appl _ _ hf), h.2.1.1, fun v hv => h.2.2 v (.inl hv)⟩,
        ih2.2 ⟨fun hf => h.1 (appr _ _ (appl _ _ hf)), h.2.1.2.1, fun v hv => h.2.2 v (.inr (.inl hv))⟩,
        ih3.2 ⟨fun hf => h.1 (appr _ _ (appr _ _ hf)), h.2.1.2.2, fun v hv => h.2.2 v (.inr (.inr hv))⟩⟩
  | bin op a b ih1 ih2 =>
    constructor
    · intro h
      have h1 := ih1.1 h.1
      have h2 := ih2.1 h.2
      exact ⟨fun hf => (app _ _ hf).elim h1.1 h2.1, ⟨h1.2.1, h2.2.1⟩, fun v hv => hv.elim (h1.2.2 v) (h2.2.2 v)⟩
    · intro h
      exact ⟨ih1.2 ⟨fun hf => h.1 (appl _ _ hf), h.2.1.1, fun v hv => h.2.2 v (.inl hv)⟩,
        ih2.2 ⟨fun hf => h.1 (appr _ _ hf), h.2.1.2, fun v hv => h.2.2 v (.inr hv)⟩⟩
  | rel op a b ih1 ih2 =>
    constructor
    · intro h
      have h1 := ih1.1 h.2.1
      have h2 := ih2.1 h.2.2
      exact ⟨fun hf => (app _ _ hf).elim h1.1 h2.1, ⟨h.1, h1.2.1, h2.2.1⟩, fun v hv => hv.elim (h1.2.2 v) (h2.2.2 v)⟩
    · intro h
      exact ⟨h.2.1.1, ih1.2 ⟨fun hf => h.1 (appl _ _ hf), h.2.1.2.1, fun v hv => h.2.2 v (.inl hv)⟩,
        ih2.2 ⟨fun hf => h.1 (appr _ _ hf), h.2.1.2.2, fun v hv => h.2.2 v (.inr hv)⟩⟩
  | un op a ih => exact ih
  | embed a ih => exact ih
  | iverson a ih => exact ih
  | cast c a ih => exact ih
  | quant op h vs a ih =>
    simp only [Clean, freshVars, CmpTypes, Occurs, ih, ne_eq, List.append_eq_nil_iff, or_imp, forall_and, List.map_eq_nil_iff,
      List.filter_eq_nil_iff, Bool.not_eq_true, List.mem_map, not_and_or, not_forall, Bool.not_eq_false, exists_prop]
    constructor
    · rintro ⟨⟨h1, h2⟩, h3, h4, h5⟩
      refine ⟨?_, h4, h5, ?_⟩
      · exact ⟨fun ⟨q, hq, hf⟩ => h1 q hq hf, h3⟩
      · rintro v ⟨q, hq, rfl⟩
        exact h2 q hq
    · rintro ⟨⟨h1, h2⟩, h4, h5, h6⟩
      exact ⟨⟨fun q hq hf => h1 ⟨q, hq, hf⟩, fun q hq => h6 _ ⟨q, hq, rfl⟩⟩, h2, h4, h5⟩
  | subst x e a ih1 ih2 =>
    constructor
    · intro h
      have h1 := ih1.1 h.2.1
      have h2 := ih2.1 h.2.2
      exact ⟨fun hf => (app _ _ hf).elim h1.1 h2.1, ⟨h1.2.1, h2.2.1⟩,
        fun v hv => hv.elim (h1.2.2 v) fun hv => hv.elim (h2.2.2 v) fun hv => hv ▸ h.1⟩
    · intro h
      exact ⟨h.2.2 x (.inr (.inr rfl)), ih1.2 ⟨fun hf => h.1 (appl _ _ hf), h.2.1.1, fun v hv => h.2.2 v (.inl hv)⟩,
        ih2.2 ⟨fun hf => h.1 (appr _ _ hf), h.2.1.2, fun v hv => h.2.2 v (.inr (.inl hv))⟩⟩

/-! ## Partial correctness for stateful computations -/

/-- The identifiers declared in the state. -/
class HasDecls (S : Type) where
  decls : S → List Ident

instance : HasDecls TyCtx := ⟨TyCtx.decls⟩
instance : HasDecls UState := ⟨fun s => s.1.decls⟩

/-- Declarations are not removed, and every result satisfies `Q` if all declared identifiers are in `D`. -/
def Par {S α : Type} [HasDecls S] (D : List Ident) (m : PM S α) (Q : α → Prop) : Prop :=
  ∀ s a s', m s = some (a, s') → HasDecls.decls s ⊆ HasDecls.decls s' ∧ (HasDecls.decls s' ⊆ D → Q a)

namespace Par
variable {S α β : Type} [HasDecls S] {D : List Ident}

theorem pure {a : α} {Q : α → Prop} (h : Q a) : Par D (Pure.pure a : PM S α) Q := by
  intro s b s' hb
  cases hb
  exact ⟨fun _ h => h, fun _ => h⟩

theorem none {Q : α → Prop} : Par D (fun _ => Option.none : PM S α) Q := fun _ _ _ h => nomatch h

theorem imp {m : PM S α} {Q R : α → Prop} (h : Par D m Q) (h' : ∀ a, Q a → R a) : Par D m R :=
  fun s a s' hs => ⟨(h s a s' hs).1, fun hD => h' a ((h s a s' hs).2 hD)⟩

theorem bind {m : PM S α} {f : α → PM S β} {Q : α → Prop} {R : β → Prop} (h : Par D m Q) (h' : ∀ a, Par D (f a) fun b => Q a → R b) :
    Par D (m >>= f) R := by
  intro s b s' hb
  have hb : (m s).bind (fun p => f p.1 p.2) = some (b, s') := hb
  cases hm : m s with
  | none => rw [hm] at hb; nomatch hb
  | some p =>
    rw [hm] at hb
    have h1 := h s p.1 p.2 hm
    have h2 := h' p.1 p.2 b s' hb
    exact ⟨fun x hx => h2.1 (h1.1 hx), fun hD => h2.2 hD (h1.2 fun x hx => hD (h2.1 hx))⟩

theorem ite {c : Prop} [Decidable c] {a b : PM S α} {Q : α → Prop} (ha : Par D a Q) (hb : Par D b Q) : Par D (if c then a else b) Q := by
  split
  · exact ha
  · exact hb

theorem traverse {n : Nat} {β : Fin n → Type} (f : (i : Fin n) → PM S (β i)) (Q : (i : Fin n) → β i → Prop) (h : ∀ i, Par D (f i) (Q i)) :
    Par D (traverseFin n f) fun g => ∀ i, Q i (g i) := by
  induction n with
  | zero => exact Par.pure fun i => i.elim0
  | succ n ih =>
    refine Par.bind (h 0) fun a => Par.bind (ih (fun i => f i.succ) (fun i => Q i.succ) fun i => h i.succ) fun as => Par.pure ?_
    exact fun has ha i => Fin.cases ha has i

theorem lift {m : PM TyCtx α} {Q : α → Prop} (h : Par D m Q) : Par D (liftTcx m) Q := by
  intro s a s' hs
  unfold liftTcx at hs
  cases hm : m s.1 with
  | none => rw [hm] at hs; nomatch hs
  | some p =>
    rw [hm] at hs
    cases hs
    exact h s.1 p.1 p.2 hm

theorem cloneVar (x : Var) (span : Nat) : Par D (fun c => c.cloneVar x span : PM TyCtx Var) fun v => v.id ∈ D := by
  intro c v c' h
  have h := TyCtx.cloneVar_spec h
  have hd : HasDecls.decls c' = v.id :: c.decls := h.2.2.1
  rw [hd]
  exact ⟨List.subset_cons_self _ _, fun hD => hD List.mem_cons_self⟩

end Par

/-! ## The passes -/

section
variable {K : Lang}

def SubstFrame.Clean (K : Lang) (fr : SubstFrame) : Prop := ∀ v e, fr.substs v = some e → e.Clean K

theorem SubstFrame.Clean.empty : SubstFrame.Clean K .empty := fun _ _ h => nomatch h

theorem SubstFrame.Clean.insert {fr : SubstFrame} (h : fr.Clean K) (x : Var) {e : Expr x.ty} (he : e.Clean K) : (fr.insert x e).Clean K := by
  intro v e' hv
  by_cases hx : v = x
  · subst hx
    have h1 : some e = some e' := by simpa [SubstFrame.insert] using hv
    cases h1
    exact he
  · exact h v e' (by simpa [SubstFrame.insert, hx] using hv)

theorem SubstFrame.Clean.remove {fr : SubstFrame} (h : fr.Clean K) (x : Var) : (fr.remove x).Clean K := by
  intro v e' hv
  by_cases hx : v = x
  · simp [SubstFrame.remove, hx] at hv
  · exact h v e' (by simpa [SubstFrame.remove, hx] using hv)

def QVarsOk (K : Lang) (qs : List QVar) : Prop := ∀ q ∈ qs, (q.fresh = true → K.fresh) ∧ q.var.id ∈ K.decls

theorem QVarsOk.cons {q : QVar} {qs : List QVar} (h1 : q.fresh = true → K.fresh) (h2 : q.var.id ∈ K.decls) (h : QVarsOk K qs) : QVarsOk K (q :: qs) := by
  intro q' hq'
  rcases List.mem_cons.mp hq' with rfl | h'
  · exact ⟨h1, h2⟩
  · exact h q' h'

theorem pushQuant_clean (span : Nat) (qs : List QVar) : ∀ fr : SubstFrame,
    Par K.decls (pushQuant span qs fr) fun r => fr.Clean K → QVarsOk K qs → QVarsOk K r.1 ∧ r.2.Clean K := by
  induction qs with
  | nil => exact fun fr => Par.pure fun h _ => ⟨fun _ h => (nomatch h), h⟩
  | cons q qs ih =>
    intro fr
    unfold pushQuant
    dsimp only
    split
    · refine Par.bind (Par.cloneVar _ _) fun new => Par.bind (ih _) fun r => Par.pure fun hr hn h hq => ?_
      have h1 := hr ((h.remove q.var).insert q.var hn) fun q' h => hq q' (List.mem_cons_of_mem _ h)
      exact ⟨h1.1.cons (fun h => nomatch h) hn, h1.2⟩
    · refine Par.bind (ih _) fun r => Par.pure fun hr h hq => ?_
      have h1 := hr (h.remove q.var) fun q' h => hq q' (List.mem_cons_of_mem _ h)
      have h2 := hq q List.mem_cons_self
      exact ⟨h1.1.cons h2.1 h2.2, h1.2⟩

theorem pushSubst_clean (fr : SubstFrame) (x : Var) (e : Expr x.ty) :
    Par K.decls (fun c => (pushSubst fr x e).map (·, c) : PM TyCtx SubstFrame) fun fr' => fr.Clean K → e.Clean K → fr'.Clean K := by
  intro c fr' c' hs
  unfold pushSubst at hs
  cases hv : e.collect [] with
  | none => rw [hv] at hs; nomatch hs
  | some vars =>
    rw [hv] at hs
    cases hs
    exact ⟨fun _ h => h, fun _ h he => h.insert x he⟩

theorem applySubst_clean (span : Nat) {t : Ty} (e : Expr t) : ∀ fr : SubstFrame,
    Par K.decls (e.applySubst span fr) fun e' => fr.Clean K → e.Clean K → e'.Clean K := by
  induction e with
  | @var t x =>
    intro fr
    unfold Expr.applySubst
    cases hs : fr.substs ⟨x, t⟩ with
    | some e => exact Par.pure fun hf _ => hf _ _ hs
    | none => exact Par.pure fun _ h => h
  | lit l => exact fun fr => Par.pure fun _ h => h
  | call f args ih =>
    intro fr
    unfold Expr.applySubst
    exact Par.bind (Par.traverse _ (fun i e' => fr.Clean K → (args i).Clean K → e'.Clean K) fun i => ih i fr) fun args' =>
      Par.pure fun h hf he => ⟨he.1, fun i => h i hf (he.2 i)⟩
  | ite c a b ih1 ih2 ih3 =>
    intro fr
    unfold Expr.applySubst
    exact Par.bind (ih1 fr) fun c' => Par.bind (ih2 fr) fun a' => Par.bind (ih3 fr) fun b' =>
      Par.pure fun h3 h2 h1 hf he => ⟨h1 hf he.1, h2 hf he.2.1, h3 hf he.2.2⟩
  | bin op a b ih1 ih2 =>
    intro fr
    unfold Expr.applySubst
    exact Par.bind (ih1 fr) fun a' => Par.bind (ih2 fr) fun b' => Par.pure fun h2 h1 hf he => ⟨h1 hf he.1, h2 hf he.2⟩
  | rel op a b ih1 ih2 =>
    intro fr
    unfold Expr.applySubst
    exact Par.bind (ih1 fr) fun a' => Par.bind (ih2 fr) fun b' => Par.pure fun h2 h1 hf he => ⟨he.1, h1 hf he.2.1, h2 hf he.2.2⟩
  | un op a ih =>
    intro fr
    unfold Expr.applySubst
    exact Par.bind (ih fr) fun a' => Par.pure fun h => h
  | embed a ih =>
    intro fr
    unfold Expr.applySubst
    exact Par.bind (ih fr) fun a' => Par.pure fun h => h
  | iverson a ih =>
    intro fr
    unfold Expr.applySubst
    exact Par.bind (ih fr) fun a' => Par.pure fun h => h
  | cast c a ih =>
    intro fr
    unfold Expr.applySubst
    exact Par.bind (ih fr) fun a' => Par.pure fun h => h
  | quant op h vs a ih =>
    intro fr
    unfold Expr.applySubst
    exact Par.bind (pushQuant_clean span vs fr) fun r => Par.bind (ih r.2) fun a' =>
      Par.pure fun h hr hf he => ⟨(hr hf he.1).1, h (hr hf he.1).2 he.2⟩
  | subst x e a ih1 ih2 =>
    intro fr
    unfold Expr.applySubst
    exact Par.bind (ih1 fr) fun e' => Par.bind (pushSubst_clean fr x e') fun fr' => (ih2 fr').imp
      fun _ h h2 h1 hf he => h (h2 hf (h1 hf he.2.1)) he.2.2

theorem withSat_par {o : Oracle} {p : Path} {c : Expr .bool} {α : Type} {k : Path → PM UState α} {Q : α → Prop} (hk : ∀ p, Par K.decls (k p) Q) :
    Par K.decls (withSat o p c k) fun r => ∀ a, r = some a → Q a := by
  unfold withSat
  have h1 : Par K.decls (askUnsat o (p.add c)) fun _ => True := by
    intro s a s' h
    cases h
    exact ⟨fun _ h => h, fun _ => trivial⟩
  refine Par.bind h1 fun b => ?_
  split
  · exact Par.pure fun _ _ h => nomatch h
  · exact Par.bind (hk _) fun a => Par.pure fun ha _ _ h => by cases h; exact ha

theorem withNonbot_par {o : Oracle} {p : Path} {α : Type} {k : Path → PM UState α} {Q : α → Prop} (hk : ∀ p, Par K.decls (k p) Q) {t : Ty} (a : Expr t) :
    Par K.decls (withNonbot o p k a) fun r => ∀ a, r = some a → Q a := by
  unfold withNonbot
  split
  · exact withSat_par hk
  · exact withSat_par hk
  · split
    · exact Par.pure fun _ h => nomatch h
    · exact Par.bind (hk _) fun a => Par.pure fun ha _ h => by cases h; exact ha

theorem withNontop_par {o : Oracle} {p : Path} {α : Type} {k : Path → PM UState α} {Q : α → Prop} (hk : ∀ p, Par K.decls (k p) Q) {t : Ty} (a : Expr t) :
    Par K.decls (withNontop o p k a) fun r => ∀ a, r = some a → Q a := by
  unfold withNontop
  split
  · exact withSat_par hk
  · split
    · exact Par.pure fun _ h => nomatch h
    · exact Par.bind (hk _) fun a => Par.pure fun ha _ h => by cases h; exact ha

theorem topLit_clean {t : Ty} (h : t.isLat = true) : (Expr.topLit t h).Clean K := by
  cases t <;> first | exact absurd h Bool.false_ne_true | exact trivial

theorem botLit_clean {t : Ty} (h : t.isLat = true) : (Expr.botLit t h).Clean K := by
  cases t <;> first | exact absurd h Bool.false_ne_true | exact trivial

theorem pruning_clean {t : Ty} (op : BinOp t) (l : Expr t) (h : op.pruning = .nonbot l ∨ op.pruning = .nontop l) : l.Clean K := by
  cases op with
  | mul hm =>
    cases t <;> rcases h with h | h <;> first | (exact absurd hm Bool.false_ne_true) | (cases h; done) | (cases h; exact trivial)
  | impl h' => rcases h with h | h <;> cases h; exact topLit_clean h'
  | compare h' => rcases h with h | h <;> cases h; exact topLit_clean h'
  | coimpl h' => rcases h with h | h <;> cases h; exact botLit_clean h'
  | cocompare h' => rcases h with h | h <;> cases h; exact botLit_clean h'
  | _ => rcases h with h | h <;> nomatch h

theorem unfold_clean (o : Oracle) (span : Nat) {t : Ty} (e : Expr t) : ∀ (p : Path) (fr : SubstFrame),
    Par K.decls (e.unfold o span p fr) fun e' => fr.Clean K → e.Clean K → e'.Clean K := by
  induction e with
  | @var t x =>
    intro p fr
    unfold Expr.unfold
    cases hs : fr.substs ⟨x, t⟩ with
    | some e => exact Par.pure fun hf _ => hf _ _ hs
    | none => exact Par.pure fun _ h => h
  | lit l => exact fun p fr => Par.pure fun _ h => h
  | call f args ih =>
    intro p fr
    unfold Expr.unfold
    exact Par.bind (Par.traverse _ (fun i e' => fr.Clean K → (args i).Clean K → e'.Clean K) fun i => ih i p fr) fun args' =>
      Par.pure fun h hf he => ⟨he.1, fun i => h i hf (he.2 i)⟩
  | ite c a b ih1 ih2 ih3 =>
    intro p fr
    unfold Expr.unfold
    refine Par.bind (ih1 p fr) fun c' => Par.bind (withSat_par fun p => ih2 p fr) fun ra => ?_
    cases ra with
    | none => exact (ih3 p fr).imp fun _ h _ _ hf he => h hf he.2.2
    | some a' =>
      refine Par.bind (withSat_par fun p => ih3 p fr) fun rb => ?_
      cases rb with
      | none => exact Par.pure fun _ h2 _ hf he => h2 _ rfl hf he.2.1
      | some b' => exact Par.pure fun h3 h2 h1 hf he => ⟨h1 hf he.1, h2 _ rfl hf he.2.1, h3 _ rfl hf he.2.2⟩
  | bin op a b ih1 ih2 =>
    intro p fr
    unfold Expr.unfold
    refine Par.bind (ih1 p fr) fun a' => ?_
    cases hop : op.pruning with
    | none => exact Par.bind (ih2 p fr) fun b' => Par.pure fun h2 h1 hf he => ⟨h1 hf he.1, h2 hf he.2⟩
    | nonbot l =>
      refine Par.bind (withNonbot_par (fun p => ih2 p fr) a') fun rb => ?_
      cases rb with
      | none => exact Par.pure fun _ _ _ _ => pruning_clean op l (.inl hop)
      | some b' => exact Par.pure fun h2 h1 hf he => ⟨h1 hf he.1, h2 _ rfl hf he.2⟩
    | nontop l =>
      refine Par.bind (withNontop_par (fun p => ih2 p fr) a') fun rb => ?_
      cases rb with
      | none => exact Par.pure fun _ _ _ _ => pruning_clean op l (.inr hop)
      | some b' => exact Par.pure fun h2 h1 hf he => ⟨h1 hf he.1, h2 _ rfl hf he.2⟩
  | rel op a b ih1 ih2 =>
    intro p fr
    unfold Expr.unfold
    exact Par.bind (ih1 p fr) fun a' => Par.bind (ih2 p fr) fun b' => Par.pure fun h2 h1 hf he => ⟨he.1, h1 hf he.2.1, h2 hf he.2.2⟩
  | un op a ih =>
    intro p fr
    unfold Expr.unfold
    exact Par.bind (ih p fr) fun a' => Par.pure fun h => h
  | embed a ih =>
    intro p fr
    unfold Expr.unfold
    exact Par.bind (ih p fr) fun a' => Par.pure fun h => h
  | iverson a ih =>
    intro p fr
    unfold Expr.unfold
    exact Par.bind (ih p fr) fun a' => Par.pure fun h => h
  | cast c a ih =>
    intro p fr
    unfold Expr.unfold
    exact Par.bind (ih p fr) fun a' => Par.pure fun h => h
  | quant op h vs a ih =>
    intro p fr
    unfold Expr.unfold
    exact Par.bind (pushQuant_clean span vs fr).lift fun r => Par.bind (ih _ r.2) fun a' =>
      Par.pure fun h hr hf he => ⟨(hr hf he.1).1, h (hr hf he.1).2 he.2⟩
  | subst x e a ih1 ih2 =>
    intro p fr
    unfold Expr.unfold
    exact Par.bind (ih1 p fr) fun e' => Par.bind (pushSubst_clean fr x e').lift fun fr' => (ih2 p fr').imp
      fun _ h h2 h1 hf he => h (h2 hf (h1 hf he.2.1)) he.2.2

theorem elimVars_clean (span : Nat) (xs : List Var) : ∀ {t : Ty} (e : Expr t),
    Par K.decls (elimVars span xs e) fun e' => (∀ x ∈ xs, x.id ∈ K.decls) → e.Clean K → e'.Clean K := by
  induction xs with
  | nil => exact fun e => Par.pure fun _ he => he
  | cons x xs ih =>
    intro t e
    unfold elimVars
    exact Par.bind (Par.cloneVar x span) fun v => (ih _).imp fun _ h hv hx he =>
      h (fun x' h' => hx x' (List.mem_cons_of_mem _ h')) ⟨hx x List.mem_cons_self, hv, he⟩

theorem qelim_clean (span : Nat) {t : Ty} (e : Expr t) : ∀ d : Dir, Par K.decls (e.qelim span d) fun e' => e.Clean K → e'.Clean K := by
  induction e with
  | ite c a b _ ih2 ih3 =>
    intro d
    unfold Expr.qelim
    refine Par.ite ?_ (Par.pure fun h => h)
    exact Par.bind (ih2 d) fun a' => Par.bind (ih3 d) fun b' => Par.pure fun h2 h1 he => ⟨he.1, h1 he.2.1, h2 he.2.2⟩
  | bin op a b ih1 ih2 =>
    intro d
    unfold Expr.qelim
    refine Par.ite ?_ (Par.pure fun h => h)
    have two : ∀ d d', Par K.decls (do let a ← a.qelim span d; let b ← b.qelim span d'; return .bin op a b : PM TyCtx (Expr _))
        fun e' => (Expr.bin op a b).Clean K → e'.Clean K :=
      fun d d' => Par.bind (ih1 d) fun a' => Par.bind (ih2 d') fun b' => Par.pure fun h2 h1 he => ⟨h1 he.1, h2 he.2⟩
    cases op with
    | mul hm =>
      cases d <;> exact Par.ite (Par.bind (ih2 _) fun b' => Par.pure fun h2 he => ⟨he.1, h2 he.2⟩)
        (Par.ite (Par.bind (ih1 _) fun b' => Par.pure fun h2 he => ⟨h2 he.1, he.2⟩) (Par.pure fun h => h))
    | _ => cases d <;> first | exact two _ _ | exact Par.pure fun h => h
  | un op a ih =>
    intro d
    unfold Expr.qelim
    refine Par.ite ?_ (Par.pure fun h => h)
    cases op <;> cases d <;> first | exact Par.pure fun h => h | exact Par.bind (ih _) fun a' => Par.pure fun h => h
  | quant op h vs a ih =>
    intro d
    unfold Expr.qelim
    refine Par.ite ?_ (Par.pure fun h => h)
    refine Par.bind (ih _) fun a' => (elimVars_clean span _ a').imp fun _ h h1 he => h ?_ (h1 he.2)
    intro x hx
    obtain ⟨q, hq, rfl⟩ := List.mem_map.1 hx
    exact (he.1 q (List.mem_filter.1 hq).1).2
  | subst x e a _ _ =>
    intro d
    unfold Expr.qelim
    exact Par.ite Par.none (Par.pure fun h => h)
  | cast c a ih =>
    intro d
    unfold Expr.qelim
    exact Par.ite (Par.bind (ih _) fun a' => Par.pure fun h => h) (Par.pure fun h => h)
  | var x => exact fun d => Par.pure fun h => h
  | lit x => exact fun d => Par.pure fun h => h
  | call f args => exact fun d => Par.pure fun h => h
  | rel op a b => exact fun d => Par.pure fun h => h
  | embed a => exact fun d => Par.pure fun h => h
  | iverson a => exact fun d => Par.pure fun h => h

theorem qelimPass_clean (span span' : Nat) {t : Ty} (e : Expr t) (d : Dir) :
    Par K.decls (qelimPass span span' e d) fun e' => e.Clean K → e'.Clean K :=
  Par.bind (qelim_clean span e d) fun e1 => (applySubst_clean span' e1 .empty).imp fun _ h h1 he => h SubstFrame.Clean.empty (h1 he)

theorem removeParensAux_clean {t : Ty} (e : Expr t) : ∀ v : Bool, e.Clean K → (e.removeParensAux v).Clean K := by
  induction e with
  | var x => exact fun _ h => h
  | lit l => exact fun _ h => h
  | call f args ih => exact fun _ h => ⟨h.1, fun i => ih i true (h.2 i)⟩
  | ite c a b ih1 ih2 ih3 => exact fun _ h => ⟨ih1 true h.1, ih2 true h.2.1, ih3 true h.2.2⟩
  | bin op a b ih1 ih2 => exact fun _ h => ⟨ih1 true h.1, ih2 true h.2⟩
  | rel op a b ih1 ih2 => exact fun _ h => ⟨h.1, ih1 true h.2.1, ih2 true h.2.2⟩
  | un op a ih =>
    intro v h
    cases op with
    | parens =>
      cases v
      · exact ih true h
      · exact ih false h
    | _ => exact ih true h
  | embed a ih => exact fun _ h => ih true h
  | iverson a ih => exact fun _ h => ih true h
  | cast c a ih => exact fun _ h => ih true h
  | quant op h vs a ih => exact fun _ h => ⟨h.1, ih true h.2⟩
  | subst x e a ih1 ih2 => exact fun _ h => ⟨h.1, ih1 true h.2.1, ih2 true h.2.2⟩

/-! ## Boolification -/

def OptP {α : Type} (m : Option α) (Q : α → Prop) : Prop := ∀ a, m = some a → Q a

theorem OptP.some {α : Type} {a : α} {Q : α → Prop} (h : Q a) : OptP (Option.some a) Q := fun _ h' => by cases h'; exact h

theorem OptP.bind {α β : Type} {m : Option α} {f : α → Option β} {Q : α → Prop} {R : β → Prop} (h : OptP m Q) (h' : ∀ a, Q a → OptP (f a) R) :
    OptP (m >>= f) R := by
  intro b hb
  cases m with
  | none => nomatch hb
  | some a => exact h' a (h a rfl) b hb

theorem asEmbed_clean {t : Ty} {e : Expr t} {b : Expr .bool} (h : e.asEmbed = some b) (he : e.Clean K) : b.Clean K := by
  unfold Expr.asEmbed at h
  split at h
  · cases h; exact he
  · nomatch h

theorem asCoimplEmbed_clean {t : Ty} {e b : Expr t} {a : Expr .bool} (h : e.asCoimplEmbed = some (a, b)) (he : e.Clean K) : a.Clean K ∧ b.Clean K := by
  unfold Expr.asCoimplEmbed at h
  split at h
  · next x y =>
    cases hx : x.asEmbed with
    | none => rw [hx] at h; nomatch h
    | some c =>
      rw [hx] at h
      obtain ⟨rfl, rfl⟩ := Prod.mk.inj (Option.some.inj h)
      exact ⟨asEmbed_clean hx he.1, he.2⟩
  · nomatch h

theorem asImplEmbed_clean {t : Ty} {e b : Expr t} {a : Expr .bool} (h : e.asImplEmbed = some (a, b)) (he : e.Clean K) : a.Clean K ∧ b.Clean K := by
  unfold Expr.asImplEmbed at h
  split at h
  · next x y =>
    cases hx : x.asEmbed with
    | none => rw [hx] at h; nomatch h
    | some c =>
      rw [hx] at h
      obtain ⟨rfl, rfl⟩ := Prod.mk.inj (Option.some.inj h)
      exact ⟨asEmbed_clean hx he.1, he.2⟩
  · nomatch h

theorem boolify_clean (n : Nat) :
    (∀ {t : Ty} (e : Expr t), e.Clean K → OptP (boolify n e) fun e' => e'.Clean K) ∧
    (∀ {t : Ty} (h : t.isLat = true) (l r : Expr t), K.cmp t → l.Clean K → r.Clean K → OptP (boolifyLeq n h l r) fun e' => e'.Clean K) ∧
    (∀ {t : Ty} (h : t.isLat = true) (e : Expr t), K.cmp t → e.Clean K → OptP (boolifyEqTop n h e) fun e' => e'.Clean K) ∧
    (∀ {t : Ty} (h : t.isLat = true) (e : Expr t), K.cmp t → e.Clean K → OptP (boolifyEqBot n h e) fun e' => e'.Clean K) := by
  induction n with
  | zero =>
    refine ⟨fun e _ => ?_, fun h l r _ _ _ => ?_, fun h e _ _ => ?_, fun h e _ _ => ?_⟩
    · unfold boolify; exact fun _ h => nomatch h
    · unfold boolifyLeq; exact fun _ h => nomatch h
    · unfold boolifyEqTop; exact fun _ h => nomatch h
    · unfold boolifyEqBot; exact fun _ h => nomatch h
  | succ n ih =>
    obtain ⟨ihe, ihl, iht, ihb⟩ := ih
    refine ⟨fun {t} e he => ?_, fun h l r hc hl hr => ?_, fun {t} h e hc he => ?_, fun {t} h e hc he => ?_⟩
    · cases e with
      | rel op a b =>
        have h1 := ihe a he.2.1
        have h2 := ihe b he.2.2
        have two : OptP (do return Expr.rel op (← boolify n a) (← boolify n b)) fun e' => Expr.Clean K e' :=
          OptP.bind h1 fun a' h1 => OptP.bind h2 fun b' h2 => OptP.some ⟨he.1, h1, h2⟩
        cases op with
        | eq =>
          unfold boolify
          dsimp only
          split
          · next h =>
            split
            · exact iht h b (he.1 rfl) he.2.2
            · split
              · exact ihb h b (he.1 rfl) he.2.2
              · split
                · exact iht h a (he.1 rfl) he.2.1
                · split
                  · exact ihb h a (he.1 rfl) he.2.1
                  · exact two
          · exact two
        | le ho =>
          unfold boolify
          dsimp only
          split
          · next h => exact ihl h a b (he.1 rfl) he.2.1 he.2.2
          · exact two
        | ge ho =>
          unfold boolify
          dsimp only
          split
          · next h => exact ihl h b a (he.1 rfl) he.2.2 he.2.1
          · exact two
        | _ => unfold boolify; exact two
      | bin op a b =>
        have h1 := ihe a he.1
        have h2 := ihe b he.2
        have two : OptP (do return Expr.bin op (← boolify n a) (← boolify n b)) fun e' => Expr.Clean K e' :=
          OptP.bind h1 fun a' h1 => OptP.bind h2 fun b' h2 => OptP.some ⟨h1, h2⟩
        cases op with
        | impl h =>
          unfold boolify
          refine OptP.bind h1 fun a' h1 => OptP.bind h2 fun b' h2 => ?_
          cases hc : a'.asEmbed with
          | some c => exact OptP.some ⟨asEmbed_clean hc h1, h2, topLit_clean h⟩
          | none => exact OptP.bind (ihe _ h1) fun a' h1 => OptP.bind (ihe _ h2) fun b' h2 => OptP.some ⟨h1, h2⟩
        | coimpl h =>
          unfold boolify
          refine OptP.bind h1 fun a' h1 => OptP.bind h2 fun b' h2 => ?_
          cases hc : a'.asEmbed with
          | some c => exact OptP.some ⟨asEmbed_clean hc h1, botLit_clean h, h2⟩
          | none => exact OptP.bind (ihe _ h1) fun a' h1 => OptP.bind (ihe _ h2) fun b' h2 => OptP.some ⟨h1, h2⟩
        | _ => unfold boolify; exact two
      | var x => unfold boolify; exact OptP.some he
      | lit l => unfold boolify; exact OptP.some he
      | call f args =>
        unfold boolify
        exact OptP.bind (Q := fun g => Expr.Clean K (.call f g)) (fun g hg => ⟨he.1, fun i => ihe (args i) (he.2 i) _ (optTraverse_some hg i)⟩) fun g hg => OptP.some hg
      | ite c a b =>
        unfold boolify
        exact OptP.bind (ihe c he.1) fun c' h1 => OptP.bind (ihe a he.2.1) fun a' h2 => OptP.bind (ihe b he.2.2) fun b' h3 => OptP.some ⟨h1, h2, h3⟩
      | un op a => unfold boolify; exact OptP.bind (ihe a he) fun a' h => OptP.some h
      | embed a => unfold boolify; exact OptP.bind (ihe a he) fun a' h => OptP.some h
      | iverson a => unfold boolify; exact OptP.bind (ihe a he) fun a' h => OptP.some h
      | cast c a => unfold boolify; exact OptP.bind (ihe a he) fun a' h => OptP.some h
      | quant op h vs a => unfold boolify; exact OptP.bind (ihe a he.2) fun a' h => OptP.some ⟨he.1, h⟩
      | subst x e a =>
        unfold boolify
        exact OptP.bind (ihe e he.2.1) fun e' h1 => OptP.bind (ihe a he.2.2) fun a' h2 => OptP.some ⟨he.1, h1, h2⟩
    · unfold boolifyLeq
      split
      · exact OptP.some trivial
      split
      · exact iht h r hc hr
      split
      · exact ihb h l hc hl
      split
      · exact OptP.some trivial
      cases h1 : l.asEmbed with
      | some b => exact OptP.bind (iht h r hc hr) fun r' h2 => OptP.some ⟨asEmbed_clean h1 hl, h2⟩
      | none =>
        cases h2 : l.asCoimplEmbed with
        | some p =>
          have h3 := asCoimplEmbed_clean h2 hl
          exact OptP.bind (ihl h p.2 r hc h3.2 hr) fun r' h2 => OptP.some ⟨h3.1, h2⟩
        | none =>
          cases h3 : r.asEmbed with
          | some b => exact OptP.bind (ihb h l hc hl) fun r' h2 => OptP.some ⟨asEmbed_clean h3 hr, h2⟩
          | none =>
            cases h4 : r.asImplEmbed with
            | some p =>
              have h5 := asImplEmbed_clean h4 hr
              exact OptP.bind (ihl h l p.2 hc hl h5.2) fun r' h2 => OptP.some ⟨h5.1, h2⟩
            | none => exact OptP.bind (ihe l hl) fun l' h1 => OptP.bind (ihe r hr) fun r' h2 => OptP.some ⟨fun _ => hc, h1, h2⟩
    · have other : OptP (match e.asEmbed with
          | some b => boolify n b
          | none => do return Expr.rel .eq (.topLit t h) (← boolify n e)) fun e' => Expr.Clean K e' := by
        cases h1 : e.asEmbed with
        | some b => exact ihe b (asEmbed_clean h1 he)
        | none => exact OptP.bind (ihe e he) fun e' h => OptP.some ⟨fun _ => hc, topLit_clean _, h⟩
      cases e with
      | ite c a b =>
        unfold boolifyEqTop
        exact OptP.bind (ihe c he.1) fun c' h1 => OptP.bind (iht h a hc he.2.1) fun a' h2 => OptP.bind (iht h b hc he.2.2) fun b' h3 => OptP.some ⟨h1, h2, h3⟩
      | bin op a b =>
        cases op with
        | impl _ => unfold boolifyEqTop; exact ihl h a b hc he.1 he.2
        | compare _ => unfold boolifyEqTop; exact ihl h a b hc he.1 he.2
        | inf _ =>
          unfold boolifyEqTop
          exact OptP.bind (iht h a hc he.1) fun a' h2 => OptP.bind (iht h b hc he.2) fun b' h3 => OptP.some ⟨h2, h3⟩
        | sup _ =>
          unfold boolifyEqTop
          exact OptP.bind (iht h a hc he.1) fun a' h2 => OptP.bind (iht h b hc he.2) fun b' h3 => OptP.some ⟨h2, h3⟩
        | _ => unfold boolifyEqTop; exact other
      | un op a =>
        cases op with
        | not _ => unfold boolifyEqTop; exact ihb h a hc he
        | _ => unfold boolifyEqTop; exact other
      | _ => unfold boolifyEqTop; exact other
    · have other : OptP (match e.asEmbed with
          | some b => do return Expr.un (.not rfl) (← boolify n b)
          | none => do return Expr.rel .eq (.botLit t h) (← boolify n e)) fun e' => Expr.Clean K e' := by
        cases h1 : e.asEmbed with
        | some b => exact OptP.bind (ihe b (asEmbed_clean h1 he)) fun b' h => OptP.some h
        | none => exact OptP.bind (ihe e he) fun e' h => OptP.some ⟨fun _ => hc, botLit_clean _, h⟩
      cases e with
      | ite c a b =>
        unfold boolifyEqBot
        exact OptP.bind (ihe c he.1) fun c' h1 => OptP.bind (ihb h a hc he.2.1) fun a' h2 => OptP.bind (ihb h b hc he.2.2) fun b' h3 => OptP.some ⟨h1, h2, h3⟩
      | bin op a b =>
        cases op with
        | coimpl _ => unfold boolifyEqBot; exact ihl h b a hc he.2 he.1
        | cocompare _ => unfold boolifyEqBot; exact ihl h b a hc he.2 he.1
        | inf _ =>
          unfold boolifyEqBot
          exact OptP.bind (ihb h a hc he.1) fun a' h2 => OptP.bind (ihb h b hc he.2) fun b' h3 => OptP.some ⟨h2, h3⟩
        | sup _ =>
          unfold boolifyEqBot
          exact OptP.bind (ihb h a hc he.1) fun a' h2 => OptP.bind (ihb h b hc he.2) fun b' h3 => OptP.some ⟨h2, h3⟩
        | _ => unfold boolifyEqBot; exact other
      | un op a =>
        cases op with
        | non _ => unfold boolifyEqBot; exact iht h a hc he
        | _ => unfold boolifyEqBot; exact other
      | _ => unfold boolifyEqBot; exact other

end

end Caesar
