import Verif.Parse.Check

/-!
# Fingerprints and reassociation

`Reassoc e e'` says that the trees are the same up to the bracketing of chains of one associative operator. Two trees without annotations that have the
same identifiers, literals and variables in the same order have the same fingerprint if and only if they are related in this way.
-/

namespace Caesar
namespace Parse

open Front

/-! ## Specification -/

/-- The operators for which the bracketing does not matter. -/
inductive AssocOp : RBin → Prop where
  | add : AssocOp .add
  | mul : AssocOp .mul
  | and : AssocOp .and
  | or : AssocOp .or
  | inf : AssocOp .inf
  | sup : AssocOp .sup

/-- Equal up to the laws `(a ∘ b) ∘ c = a ∘ (b ∘ c)`, applied anywhere in the tree. -/
inductive Reassoc : RExpr → RExpr → Prop where
  | refl (e) : Reassoc e e
  | symm {e e'} (h : Reassoc e e') : Reassoc e' e
  | trans {e e' e''} (h : Reassoc e e') (h' : Reassoc e' e'') : Reassoc e e''
  | assoc {o} (ho : AssocOp o) (a b c) : Reassoc (.bin none o (.bin none o a b) c) (.bin none o a (.bin none o b c))
  | bin {a a' b b'} (t o) (ha : Reassoc a a') (hb : Reassoc b b') : Reassoc (.bin t o a b) (.bin t o a' b')
  | un {a a'} (t o) (h : Reassoc a a') : Reassoc (.un t o a) (.un t o a')
  | ite {c c' a a' b b'} (t) (hc : Reassoc c c') (ha : Reassoc a a') (hb : Reassoc b b') : Reassoc (.ite t c a b) (.ite t c' a' b')
  | call {e e'} (t f l r) (h : Reassoc e e') : Reassoc (.call t f (l ++ e :: r)) (.call t f (l ++ e' :: r))
  | trigger {e e'} (t o vs L l r R a) (h : Reassoc e e') :
      Reassoc (.quant t o vs (L ++ (l ++ e :: r) :: R) a) (.quant t o vs (L ++ (l ++ e' :: r) :: R) a)
  | quant {a a'} (t o vs trs) (h : Reassoc a a') : Reassoc (.quant t o vs trs a) (.quant t o vs trs a')
  | subst {v v' a a'} (t x) (hv : Reassoc v v') (ha : Reassoc a a') : Reassoc (.subst t x v a) (.subst t x v' a')

theorem isAssoc_iff {o : RBin} : isAssoc o = true ↔ AssocOp o := by
  constructor
  · intro h
    cases o <;> first | constructor | cases h
  · intro h
    cases h <;> rfl

/-! ## Normal forms -/

/-- `a o b` with the chain of `o` in `a` bracketed to the right. -/
def graft (o : RBin) : RExpr → RExpr → RExpr
  | .bin t o' x y, z => if o' = o then .bin none o x (graft o y z) else .bin none o (.bin t o' x y) z
  | e, z => .bin none o e z

mutual

/-- The tree with all chains bracketed to the right. -/
def norm : RExpr → RExpr
  | .var t x => .var t x
  | .call t f args => .call t f (normL args)
  | .ite t c a b => .ite t (norm c) (norm a) (norm b)
  | .bin t o a b => if isAssoc o then graft o (norm a) (norm b) else .bin t o (norm a) (norm b)
  | .un t o a => .un t o (norm a)
  | .cast t a => .cast t (norm a)
  | .quant t o vs trs a => .quant t o vs (normLL trs) (norm a)
  | .subst t x v a => .subst t x (norm v) (norm a)
  | .lit t l => .lit t l

def normL : List RExpr → List RExpr
  | [] => []
  | e :: es => norm e :: normL es

def normLL : List (List RExpr) → List (List RExpr)
  | [] => []
  | es :: ess => normL es :: normLL ess

end

mutual

/-- Trees as the parser builds them: no annotations, no casts, and all variables of quantifiers are declared there. -/
def Bare : RExpr → Prop
  | .var t _ => t = none
  | .call t _ args => t = none ∧ BareL args
  | .ite t c a b => t = none ∧ Bare c ∧ Bare a ∧ Bare b
  | .bin t _ a b => t = none ∧ Bare a ∧ Bare b
  | .un t _ a => t = none ∧ Bare a
  | .cast _ _ => False
  | .quant t _ vs trs a => t = none ∧ (∀ v ∈ vs, v.fresh = true) ∧ BareLL trs ∧ Bare a
  | .subst t _ v a => t = none ∧ Bare v ∧ Bare a
  | .lit t _ => t = none

def BareL : List RExpr → Prop
  | [] => True
  | e :: es => Bare e ∧ BareL es

def BareLL : List (List RExpr) → Prop
  | [] => True
  | es :: ess => BareL es ∧ BareLL ess

end

theorem BareL.mem {es : List RExpr} (h : BareL es) {e : RExpr} (he : e ∈ es) : Bare e := by
  induction es with
  | nil => cases he
  | cons x xs ih =>
    rcases List.mem_cons.1 he with rfl | he
    · exact h.1
    · exact ih h.2 he

theorem graft_assoc (o : RBin) : ∀ (a b c : RExpr), graft o (graft o a b) c = graft o a (graft o b c)
  | .bin t o' x y, b, c => by
    by_cases h : o' = o
    · subst h
      simp [graft, graft_assoc o' y b c]
    · simp [graft, h]
  | .var _ _, _, _ | .call _ _ _, _, _ | .ite _ _ _ _, _, _ | .un _ _ _, _, _ | .cast _ _, _, _ | .quant _ _ _ _ _, _, _
  | .subst _ _ _ _, _, _ | .lit _ _, _, _ => by simp [graft]

theorem normL_append (l r : List RExpr) : normL (l ++ r) = normL l ++ normL r := by
  induction l with
  | nil => rfl
  | cons x xs ih => simp [normL, ih]

theorem normLL_append (l r : List (List RExpr)) : normLL (l ++ r) = normLL l ++ normLL r := by
  induction l with
  | nil => rfl
  | cons x xs ih => simp [normLL, ih]

theorem Reassoc.norm {e e' : RExpr} (h : Reassoc e e') : norm e = norm e' := by
  induction h with
  | refl => rfl
  | symm _ ih => exact ih.symm
  | trans _ _ ih ih' => exact ih.trans ih'
  | assoc ho a b c => simp [Parse.norm, isAssoc_iff.2 ho, graft_assoc]
  | bin t o _ _ ha hb => simp [Parse.norm, ha, hb]
  | un t o _ h => simp [Parse.norm, h]
  | ite t _ _ _ hc ha hb => simp [Parse.norm, hc, ha, hb]
  | call t f l r _ h => simp [Parse.norm, normL_append, normL, h]
  | trigger t o vs L l r R a _ h => simp [Parse.norm, normL_append, normL, normLL_append, normLL, h]
  | quant t o vs trs _ h => simp [Parse.norm, h]
  | subst t x _ _ hv ha => simp [Parse.norm, hv, ha]

theorem Reassoc.graft {o : RBin} (ho : AssocOp o) : ∀ {a : RExpr} (_ : Bare a) (b : RExpr),
    Reassoc (.bin none o a b) (graft o a b)
  | .bin t o' x y, ha, b => by
    obtain ⟨rfl, hx, hy⟩ := ha
    by_cases h : o' = o
    · subst h
      simp only [Parse.graft, if_true]
      exact (Reassoc.assoc ho x y b).trans (.bin none o' (.refl x) (Reassoc.graft ho hy b))
    · simp only [Parse.graft, h, if_false]
      exact .refl _
  | .var _ _, _, _ | .call _ _ _, _, _ | .ite _ _ _ _, _, _ | .un _ _ _, _, _ | .cast _ _, _, _ | .quant _ _ _ _ _, _, _
  | .subst _ _ _ _, _, _ | .lit _ _, _, _ => .refl _

theorem Bare.graft {o : RBin} : ∀ {a : RExpr} (_ : Bare a) {b : RExpr} (_ : Bare b), Bare (graft o a b)
  | .bin t o' x y, ha, b, hb => by
    obtain ⟨rfl, hx, hy⟩ := ha
    by_cases h : o' = o
    · subst h
      simp only [Parse.graft, if_true]
      exact ⟨rfl, hx, Bare.graft hy hb⟩
    · simp only [Parse.graft, h, if_false]
      exact ⟨rfl, ⟨rfl, hx, hy⟩, hb⟩
  | .var _ _, ha, _, hb | .call _ _ _, ha, _, hb | .ite _ _ _ _, ha, _, hb | .un _ _ _, ha, _, hb | .cast _ _, ha, _, hb
  | .quant _ _ _ _ _, ha, _, hb | .subst _ _ _ _, ha, _, hb | .lit _ _, ha, _, hb => ⟨rfl, ha, hb⟩

/-- Arguments one after the other. -/
theorem Reassoc.callL (t : Option RTy) (f : Ident) {es es' : List RExpr} (h : List.Forall₂ Reassoc es es') (l : List RExpr) :
    Reassoc (.call t f (l ++ es)) (.call t f (l ++ es')) := by
  induction h generalizing l with
  | nil => exact .refl _
  | cons h _ ih =>
    rename_i a b as bs _
    have := ih (l ++ [b])
    rw [List.append_assoc, List.append_assoc] at this
    exact (Reassoc.call t f l as h).trans this

theorem Reassoc.triggerL (t : Option RTy) (o : QOp) (vs : List QVar) (L R : List (List RExpr)) (a : RExpr) {es es' : List RExpr}
    (h : List.Forall₂ Reassoc es es') (l : List RExpr) :
    Reassoc (.quant t o vs (L ++ (l ++ es) :: R) a) (.quant t o vs (L ++ (l ++ es') :: R) a) := by
  induction h generalizing l with
  | nil => exact .refl _
  | cons h _ ih =>
    rename_i x y xs ys _
    have := ih (l ++ [y])
    rw [List.append_assoc, List.append_assoc] at this
    exact (Reassoc.trigger t o vs L l xs R a h).trans this

theorem Reassoc.triggerLL (t : Option RTy) (o : QOp) (vs : List QVar) (a : RExpr) {ess ess' : List (List RExpr)}
    (h : List.Forall₂ (List.Forall₂ Reassoc) ess ess') (L : List (List RExpr)) :
    Reassoc (.quant t o vs (L ++ ess) a) (.quant t o vs (L ++ ess') a) := by
  induction h generalizing L with
  | nil => exact .refl _
  | cons h _ ih =>
    rename_i x y xs ys _
    have := ih (L ++ [y])
    rw [List.append_assoc, List.append_assoc] at this
    exact (Reassoc.triggerL t o vs L xs a h []).trans this

mutual

theorem norm_bare : ∀ {e : RExpr}, Bare e → Reassoc e (norm e) ∧ Bare (norm e)
  | .var _ _, h => ⟨.refl _, h⟩
  | .call t f args, h => by
    obtain ⟨rfl, h⟩ := h
    have := normL_bare h
    exact ⟨Reassoc.callL none f this.1 [], rfl, this.2⟩
  | .ite t c a b, h => by
    obtain ⟨rfl, hc, ha, hb⟩ := h
    exact ⟨.ite none (norm_bare hc).1 (norm_bare ha).1 (norm_bare hb).1, rfl, (norm_bare hc).2, (norm_bare ha).2, (norm_bare hb).2⟩
  | .bin t o a b, h => by
    obtain ⟨rfl, ha, hb⟩ := h
    simp only [norm]
    split
    · next ho =>
      exact ⟨(Reassoc.bin none o (norm_bare ha).1 (norm_bare hb).1).trans (.graft (isAssoc_iff.1 ho) (norm_bare ha).2 _),
        (norm_bare ha).2.graft (norm_bare hb).2⟩
    · exact ⟨.bin none o (norm_bare ha).1 (norm_bare hb).1, rfl, (norm_bare ha).2, (norm_bare hb).2⟩
  | .un t o a, h => by
    obtain ⟨rfl, h⟩ := h
    exact ⟨.un none o (norm_bare h).1, rfl, (norm_bare h).2⟩
  | .cast _ _, h => h.elim
  | .quant t o vs trs a, h => by
    obtain ⟨rfl, hv, ht, ha⟩ := h
    have := normLL_bare ht
    exact ⟨(Reassoc.triggerLL none o vs a this.1 []).trans (.quant none o vs _ (norm_bare ha).1), rfl, hv, this.2, (norm_bare ha).2⟩
  | .subst t x v a, h => by
    obtain ⟨rfl, hv, ha⟩ := h
    exact ⟨.subst none x (norm_bare hv).1 (norm_bare ha).1, rfl, (norm_bare hv).2, (norm_bare ha).2⟩
  | .lit _ _, h => ⟨.refl _, h⟩

theorem normL_bare : ∀ {es : List RExpr}, BareL es → List.Forall₂ Reassoc es (normL es) ∧ BareL (normL es)
  | [], _ => ⟨.nil, trivial⟩
  | _ :: _, h => ⟨.cons (norm_bare h.1).1 (normL_bare h.2).1, (norm_bare h.1).2, (normL_bare h.2).2⟩

theorem normLL_bare : ∀ {es : List (List RExpr)}, BareLL es → List.Forall₂ (List.Forall₂ Reassoc) es (normLL es) ∧ BareLL (normLL es)
  | [], _ => ⟨.nil, trivial⟩
  | _ :: _, h => ⟨.cons (normL_bare h.1).1 (normLL_bare h.2).1, (normL_bare h.1).2, (normLL_bare h.2).2⟩

end

theorem reassoc_of_norm {e e' : RExpr} (h : Bare e) (h' : Bare e') (hn : norm e = norm e') : Reassoc e e' :=
  (norm_bare h).1.trans (hn ▸ (norm_bare h').1.symm)

/-! ## Reassociation does not change fingerprints -/

theorem fpL_append (l r : List RExpr) : fpL (l ++ r) = fpL l ++ fpL r := by
  induction l with
  | nil => rfl
  | cons x xs ih => simp [fpL, ih]

theorem fpLL_append (l r : List (List RExpr)) : fpLL (l ++ r) = fpLL l ++ fpLL r := by
  induction l with
  | nil => rfl
  | cons x xs ih => simp [fpLL, ih]

theorem Reassoc.fpIn {e e' : RExpr} (h : Reassoc e e') : ∀ c, fpIn c e = fpIn c e' := by
  induction h with
  | refl => exact fun _ => rfl
  | symm _ ih => exact fun c => (ih c).symm
  | trans _ _ ih ih' => exact fun c => (ih c).trans (ih' c)
  | @assoc o ho a b c =>
    intro k
    by_cases h : k = some o
    · simp [Parse.fpIn, h]
    · simp [Parse.fpIn, h, isAssoc_iff.2 ho]
  | bin t o _ _ ha hb => intro k; simp [Parse.fpIn, ha, hb]
  | un t o _ h => intro k; simp [Parse.fpIn, h]
  | ite t _ _ _ hc ha hb => intro k; simp [Parse.fpIn, hc, ha, hb]
  | call t f l r _ h => intro k; simp [Parse.fpIn, fpL_append, fpL, h]
  | trigger t o vs L l r R a _ h => intro k; simp [Parse.fpIn, fpL_append, fpL, fpLL_append, fpLL, h]
  | quant t o vs trs _ h => intro k; simp [Parse.fpIn, h]
  | subst t x _ _ hv ha => intro k; simp [Parse.fpIn, hv, ha]

/-! ## Equal fingerprints mean equal normal forms -/

/-- The fingerprint of a term of a chain. -/
theorem fpIn_chain {o : RBin} {e : RExpr} (h : ∀ t a b, e ≠ .bin t o a b) : fpIn (some o) e = fp e ++ [.semi] := by
  cases e with
  | bin t o' a b =>
    have : ¬ o = o' := fun hh => h t a b (hh ▸ rfl)
    simp only [fpIn, fp, Option.some.injEq, this, if_false, fpEnd, Option.isSome_some, if_true, reduceCtorEq, Option.isSome_none, Bool.false_eq_true]
    split <;> rfl
  | _ => rfl

theorem terms_chain (o : RBin) : ∀ (e : RExpr), ∀ x ∈ terms o e, ∀ t a b, x ≠ .bin t o a b
  | .bin t o' a b, x, hx => by
    unfold terms at hx
    split at hx
    · rcases List.mem_append.1 hx with h | h
      · exact terms_chain o a x h
      · exact terms_chain o b x h
    · next h =>
      rw [List.mem_singleton] at hx
      subst hx
      intro _ _ _ he
      injection he with _ he
      exact h he
  | .var _ _, x, hx | .call _ _ _, x, hx | .ite _ _ _ _, x, hx | .un _ _ _, x, hx | .cast _ _, x, hx | .quant _ _ _ _ _, x, hx
  | .subst _ _ _ _, x, hx | .lit _ _, x, hx => by
    obtain rfl := List.mem_singleton.1 hx
    intro _ _ _ he
    cases he

/-- The loop over the terms of a chain (`src/front/parser/precedence_update/mod.rs:427-430`). -/
theorem fpIn_terms (o : RBin) : ∀ (e : RExpr), fpIn (some o) e = fpL (terms o e)
  | .bin t o' a b => by
    by_cases h : o' = o
    · subst h
      simp [fpIn, terms, fpL_append, fpIn_terms o' a, fpIn_terms o' b]
    · rw [fpIn_chain (by intro _ _ _ he; injection he with _ he; exact h he)]
      simp [terms, h, fpL, fp]
  | .var _ _ | .call _ _ _ | .ite _ _ _ _ | .un _ _ _ | .cast _ _ | .quant _ _ _ _ _ | .subst _ _ _ _ | .lit _ _ => by
    rw [fpIn_chain (by intro _ _ _ he; cases he)]
    simp [terms, fpL, fp]

/-- The case for associative operators (`src/front/parser/precedence_update/mod.rs:423-432`), as in the code. -/
theorem fp_assoc (t : Option RTy) {o : RBin} (ho : isAssoc o = true) (a b : RExpr) :
    fp (.bin t o a b) = [.assoc, .op o, .lb] ++ fpL (terms o (.bin t o a b)) ++ [.rb] := by
  simp [fp, fpIn, ho, fpEnd, terms, fpL_append, fpIn_terms]

/-- The identifiers, literals and declarations in a tree, from left to right. -/
inductive Content where
  | id (x : Ident)
  | lit (l : RLit)
  | decl (v : Var)

mutual

def contents : RExpr → List Content
  | .var _ x => [.id x]
  | .call _ f args => .id f :: contentsL args
  | .ite _ c a b => contents c ++ (contents a ++ contents b)
  | .bin _ _ a b => contents a ++ contents b
  | .un _ _ a => contents a
  | .cast _ a => contents a
  | .quant _ _ vs trs a => vs.map (fun v => .decl v.var) ++ (contentsLL trs ++ contents a)
  | .subst _ x v a => .id x :: (contents v ++ contents a)
  | .lit _ l => [.lit l]

def contentsL : List RExpr → List Content
  | [] => []
  | e :: es => contents e ++ contentsL es

def contentsLL : List (List RExpr) → List Content
  | [] => []
  | es :: ess => contentsL es ++ contentsLL ess

end

theorem contentsL_append (l r : List RExpr) : contentsL (l ++ r) = contentsL l ++ contentsL r := by
  induction l with
  | nil => rfl
  | cons x xs ih => simp [contentsL, ih]

theorem contents_terms (o : RBin) : ∀ (e : RExpr), contents e = contentsL (terms o e)
  | .bin t o' a b => by
    by_cases h : o' = o
    · subst h
      simp [contents, terms, contentsL_append, contents_terms o' a, contents_terms o' b]
    · simp [terms, h, contentsL]
  | .var _ _ | .call _ _ _ | .ite _ _ _ _ | .un _ _ _ | .cast _ _ | .quant _ _ _ _ _ | .subst _ _ _ _ | .lit _ _ => by
    simp [terms, contentsL]

/-- A chain of `o` with the given terms, bracketed to the right. -/
def build (o : RBin) : List RExpr → RExpr → RExpr
  | [], z => z
  | x :: xs, z => .bin none o x (build o xs z)

theorem build_append (o : RBin) (l r : List RExpr) (z : RExpr) : build o (l ++ r) z = build o l (build o r z) := by
  induction l with
  | nil => rfl
  | cons x xs ih => simp [build, ih]

theorem graft_head {o : RBin} {x : RExpr} (h : ∀ t a b, x ≠ .bin t o a b) (z : RExpr) : graft o x z = .bin none o x z := by
  cases x with
  | bin t o' a b =>
    have : ¬ o' = o := fun hh => h t a b (hh ▸ rfl)
    simp [graft, this]
  | _ => rfl

theorem graft_isBin (o : RBin) (a b : RExpr) : ∃ x y, graft o a b = .bin none o x y := by
  cases a with
  | bin t o' x y =>
    by_cases h : o' = o
    · exact ⟨_, _, by simp only [graft, h, if_true]; rfl⟩
    · exact ⟨_, _, by simp only [graft, h, if_false]; rfl⟩
  | _ => exact ⟨_, _, rfl⟩

/-- Normal forms keep the operator at the root. -/
theorem norm_head {o : RBin} {x : RExpr} (h : ∀ t a b, x ≠ .bin t o a b) : ∀ t a b, norm x ≠ .bin t o a b := by
  intro t a b hn
  cases x with
  | bin t' o' a' b' =>
    have ho : ¬ o' = o := fun hh => h t' a' b' (hh ▸ rfl)
    simp only [norm] at hn
    split at hn
    · obtain ⟨x, y, hg⟩ := graft_isBin o' (norm a') (norm b')
      rw [hg] at hn
      injection hn with _ hn
      exact ho hn
    · injection hn with _ hn
      exact ho hn
  | _ => cases hn

/-- A chain of `o` with the given terms, bracketed to the right. -/
def chain (o : RBin) : List RExpr → RExpr
  | [] => .var none ⟨"", 0⟩
  | [x] => x
  | x :: y :: xs => .bin none o x (chain o (y :: xs))

theorem chain_append (o : RBin) : ∀ (l r : List RExpr), r ≠ [] → chain o (l ++ r) = build o l (chain o r)
  | [], _, _ => rfl
  | [_], _ :: _, _ => rfl
  | x :: y :: xs, r, h => by
    have := chain_append o (y :: xs) r h
    simp only [List.cons_append] at this ⊢
    simp only [chain, build, this]

theorem terms_ne (o : RBin) : ∀ (e : RExpr), terms o e ≠ []
  | .bin t o' a b => by
    unfold terms
    split
    · simp [terms_ne o a]
    · simp
  | .var _ _ | .call _ _ _ | .ite _ _ _ _ | .un _ _ _ | .cast _ _ | .quant _ _ _ _ _ | .subst _ _ _ _ | .lit _ _ => by simp [terms]

/-- The normal form of a chain, with something grafted onto it. -/
theorem graft_norm {o : RBin} (ho : isAssoc o = true) : ∀ (e z : RExpr), graft o (norm e) z = build o ((terms o e).map norm) z
  | .bin t o' a b, z => by
    by_cases h : o' = o
    · subst h
      simp only [norm, ho, if_true, terms, List.map_append, build_append]
      rw [graft_assoc, graft_norm ho a, graft_norm ho b]
    · simp only [terms, h, if_false, List.map_cons, List.map_nil, build]
      exact graft_head (norm_head (by intro _ _ _ he; injection he with _ he; exact h he)) z
  | .var _ _, z | .call _ _ _, z | .ite _ _ _ _, z | .un _ _ _, z | .cast _ _, z | .quant _ _ _ _ _, z | .subst _ _ _ _, z | .lit _ _, z => by
    simp [terms, build, norm, graft]

/-- The terms of a chain determine its normal form. -/
theorem norm_terms {o : RBin} (ho : isAssoc o = true) : ∀ (e : RExpr), norm e = chain o ((terms o e).map norm)
  | .bin t o' a b => by
    by_cases h : o' = o
    · subst h
      simp only [norm, ho, if_true, terms, List.map_append]
      rw [chain_append _ _ _ (by simp [terms_ne]), ← norm_terms ho b, graft_norm ho a]
    · simp [terms, h, chain]
  | .var _ _ | .call _ _ _ | .ite _ _ _ _ | .un _ _ _ | .cast _ _ | .quant _ _ _ _ _ | .subst _ _ _ _ | .lit _ _ => by
    simp [terms, chain]

theorem normL_map (es : List RExpr) : normL es = es.map norm := by
  induction es with
  | nil => rfl
  | cons x xs ih => simp [normL, ih]

theorem bareL_terms (o : RBin) : ∀ {e : RExpr}, Bare e → BareL (terms o e)
  | .bin t o' a b, h => by
    have app : ∀ {l r : List RExpr}, BareL l → BareL r → BareL (l ++ r) := by
      intro l r hl hr
      induction l with
      | nil => exact hr
      | cons x xs ih => exact ⟨hl.1, ih hl.2⟩
    unfold terms
    split
    · exact app (bareL_terms o h.2.1) (bareL_terms o h.2.2)
    · exact ⟨h, trivial⟩
  | .var _ _, h | .call _ _ _, h | .ite _ _ _ _, h | .un _ _ _, h | .cast _ _, h | .quant _ _ _ _ _, h | .subst _ _ _ _, h | .lit _ _, h => ⟨h, trivial⟩

/-- Pieces with which fingerprints start. -/
def Piece.head : Piece → Bool
  | .var | .call | .ite | .assoc | .bin | .un | .cast | .quant | .subst | .lit => true
  | _ => false

theorem fp_head (e : RExpr) : ∃ p ps, fp e = p :: ps ∧ p.head = true := by
  cases e with
  | bin t o a b =>
    simp only [fp, fpIn, reduceCtorEq, if_false, fpEnd, Option.isSome_none, Bool.false_eq_true]
    split
    · exact ⟨_, _, rfl, rfl⟩
    · exact ⟨_, _, rfl, rfl⟩
  | _ => exact ⟨_, _, rfl, rfl⟩

/-- The claim for fingerprints of at most `n` pieces. -/
def InjUpTo (n : Nat) : Prop :=
  ∀ e e' r r' c c', (fp e).length ≤ n → Bare e → Bare e' → fp e ++ r = fp e' ++ r' → contents e ++ c = contents e' ++ c' →
    norm e = norm e' ∧ r = r' ∧ c = c'

theorem fpL_cons (e : RExpr) (es : List RExpr) : fpL (e :: es) = fp e ++ (.semi :: fpL es) := by
  simp [fpL, fp]

theorem inj_list {n : Nat} (hn : InjUpTo n) : ∀ (es es' : List RExpr) (r r' : List Piece) (c c' : List Content), (fpL es).length ≤ n →
    BareL es → BareL es' → fpL es ++ (.rb :: r) = fpL es' ++ (.rb :: r') → contentsL es ++ c = contentsL es' ++ c' →
    normL es = normL es' ∧ r = r' ∧ c = c' := by
  intro es
  induction es with
  | nil =>
    intro es' r r' c c' _ _ _ he hc
    cases es' with
    | nil =>
      simp only [fpL, List.nil_append, List.cons.injEq, true_and] at he
      exact ⟨rfl, he, hc⟩
    | cons y ys =>
      obtain ⟨p, ps, hp, hh⟩ := fp_head y
      rw [fpL_cons, hp] at he
      simp only [fpL, List.nil_append, List.cons_append, List.cons.injEq] at he
      rw [← he.1] at hh
      cases hh
  | cons x xs ih =>
    intro es' r r' c c' hl hb hb' he hc
    rw [fpL_cons] at hl he
    simp only [List.length_append, List.length_cons] at hl
    cases es' with
    | nil =>
      obtain ⟨p, ps, hp, hh⟩ := fp_head x
      rw [hp] at he
      simp only [fpL, List.nil_append, List.cons_append, List.cons.injEq] at he
      rw [he.1] at hh
      cases hh
    | cons y ys =>
      rw [fpL_cons] at he
      simp only [List.append_assoc, List.cons_append, contentsL] at he hc
      obtain ⟨h1, h2, h3⟩ := hn x y _ _ _ _ (by omega) hb.1 hb'.1 he hc
      injection h2 with _ h2
      obtain ⟨h4, h5, h6⟩ := ih ys r r' c c' (by omega) hb.2 hb'.2 h2 h3
      exact ⟨by simp [normL, h1, h4], h5, h6⟩

theorem inj_lists {n : Nat} (hn : InjUpTo n) : ∀ (es es' : List (List RExpr)) (r r' : List Piece) (c c' : List Content),
    (fpLL es).length ≤ n → BareLL es → BareLL es' → fpLL es ++ (.rc :: r) = fpLL es' ++ (.rc :: r') →
    contentsLL es ++ c = contentsLL es' ++ c' → normLL es = normLL es' ∧ r = r' ∧ c = c' := by
  intro es
  induction es with
  | nil =>
    intro es' r r' c c' _ _ _ he hc
    cases es' with
    | nil =>
      simp only [fpLL, List.nil_append, List.cons.injEq, true_and] at he
      exact ⟨rfl, he, hc⟩
    | cons y ys => simp [fpLL] at he
  | cons x xs ih =>
    intro es' r r' c c' hl hb hb' he hc
    cases es' with
    | nil => simp [fpLL] at he
    | cons y ys =>
      simp only [fpLL, List.append_assoc, List.cons_append, List.nil_append, List.cons.injEq, true_and, contentsLL] at he hc
      simp only [fpLL, List.append_assoc, List.cons_append, List.nil_append, List.length_append, List.length_cons] at hl
      obtain ⟨h1, h2, h3⟩ := inj_list hn x y _ _ _ _ (by omega) hb.1 hb'.1 he hc
      obtain ⟨h4, h5, h6⟩ := ih ys r r' c c' (by omega) hb.2 hb'.2 h2 h3
      exact ⟨by simp [normLL, h1, h4], h5, h6⟩

theorem inj_vars : ∀ (vs vs' : List QVar) (r r' : List Piece) (c c' : List Content), (∀ v ∈ vs, v.fresh = true) → (∀ v ∈ vs', v.fresh = true) →
    vs.map fpVar ++ (.rb :: r) = vs'.map fpVar ++ (.rb :: r') →
    vs.map (fun v => Content.decl v.var) ++ c = vs'.map (fun v => Content.decl v.var) ++ c' → vs = vs' ∧ r = r' ∧ c = c' := by
  intro vs
  have hne : ∀ v : QVar, fpVar v ≠ .rb := by
    intro v
    unfold fpVar
    split <;> simp
  induction vs with
  | nil =>
    intro vs' r r' c c' _ _ he hc
    cases vs' with
    | nil =>
      simp only [List.map_nil, List.nil_append, List.cons.injEq, true_and] at he
      exact ⟨rfl, he, hc⟩
    | cons y ys =>
      simp only [List.map_nil, List.nil_append, List.map_cons, List.cons_append, List.cons.injEq] at he
      exact (hne y he.1.symm).elim
  | cons x xs ih =>
    intro vs' r r' c c' hv hv' he hc
    cases vs' with
    | nil =>
      simp only [List.map_nil, List.nil_append, List.map_cons, List.cons_append, List.cons.injEq] at he
      exact (hne x he.1).elim
    | cons y ys =>
      simp only [List.map_cons, List.cons_append, List.cons.injEq, Content.decl.injEq] at he hc
      obtain ⟨h1, h2, h3⟩ := ih ys r r' c c' (fun v h => hv v (.tail _ h)) (fun v h => hv' v (.tail _ h)) he.2 hc.2
      have hx := hv x (.head _)
      have hy := hv' y (.head _)
      obtain ⟨xf, xv⟩ := x
      obtain ⟨yf, yv⟩ := y
      simp only at hx hy hc
      exact ⟨by rw [hx, hy, hc.1, h1], h2, h3⟩

theorem fp_bin (t : Option RTy) {o : RBin} (ho : isAssoc o = false) (a b : RExpr) :
    fp (.bin t o a b) = [.bin, .op o, .open] ++ (fp a ++ ([.comma] ++ (fp b ++ [.close]))) := by
  simp [fp, fpIn, ho, fpEnd]

theorem fp_var (t : Option RTy) (x : Ident) : fp (.var t x) = [.var, .name x.name, .close] := rfl

theorem fp_call (t : Option RTy) (f : Ident) (args : List RExpr) : fp (.call t f args) = [.call, .name f.name, .close, .lb] ++ (fpL args ++ [.rb]) := by
  simp [fp, fpIn, fpEnd]

theorem fp_ite (t : Option RTy) (c a b : RExpr) :
    fp (.ite t c a b) = [.ite] ++ (fp c ++ ([.comma] ++ (fp a ++ ([.comma] ++ (fp b ++ [.close]))))) := by
  simp [fp, fpIn, fpEnd]

theorem fp_un (t : Option RTy) (o : RUn) (a : RExpr) : fp (.un t o a) = [.un, .uop o, .open] ++ (fp a ++ [.close]) := by
  simp [fp, fpIn, fpEnd]

theorem fp_quant (t : Option RTy) (o : QOp) (vs : List QVar) (trs : List (List RExpr)) (a : RExpr) :
    fp (.quant t o vs trs a) = [.quant, .qop o, .lb] ++ (vs.map fpVar ++ ([.rb, .lc] ++ (fpLL trs ++ ([.rc] ++ fp a)))) := by
  simp [fp, fpIn, fpEnd]

theorem fp_subst (t : Option RTy) (x : Ident) (v a : RExpr) :
    fp (.subst t x v a) = [.subst, .name x.name, .open] ++ (fp v ++ ([.comma] ++ (fp a ++ [.close]))) := by
  simp [fp, fpIn, fpEnd]

theorem fp_lit (t : Option RTy) (l : RLit) : fp (.lit t l) = [.lit, .value l, .close] := rfl

theorem inj_all : ∀ n, InjUpTo n := by
  intro n
  induction n with
  | zero =>
    intro e e' r r' c c' hl
    obtain ⟨p, ps, hp, -⟩ := fp_head e
    rw [hp] at hl
    simp at hl
  | succ n hn =>
    intro e e' r r' c c' hl hb hb' he hc
    have binAs : ∀ (t : Option RTy) (o : RBin) (a b : RExpr), isAssoc o = true →
        fp (.bin t o a b) = [.assoc, .op o, .lb] ++ (fpL (terms o (.bin t o a b)) ++ [.rb]) := by
      intro t o a b ho
      rw [fp_assoc t ho, List.append_assoc]
    cases e with
    | cast t a => exact hb.elim
    | var t x =>
      cases e' with
      | cast t a => exact hb'.elim
      | var t' x' =>
        cases hb
        cases hb'
        simp only [fp_var, contents, List.cons_append, List.nil_append, List.cons.injEq, true_and, Content.id.injEq] at he hc
        exact ⟨by rw [hc.1], he.2, hc.2⟩
      | bin t' o' a' b' =>
        cases ho : isAssoc o' with
        | true => rw [binAs _ _ _ _ ho, fp_var] at he; simp at he
        | false => rw [fp_bin _ ho, fp_var] at he; simp at he
      | _ => simp [fp_var, fp_call, fp_ite, fp_un, fp_quant, fp_subst, fp_lit] at he
    | lit t x =>
      cases e' with
      | cast t a => exact hb'.elim
      | lit t' x' =>
        cases hb
        cases hb'
        simp only [fp_lit, contents, List.cons_append, List.nil_append, List.cons.injEq, true_and, Content.lit.injEq] at he hc
        exact ⟨by rw [hc.1], he.2, hc.2⟩
      | bin t' o' a' b' =>
        cases ho : isAssoc o' with
        | true => rw [binAs _ _ _ _ ho, fp_lit] at he; simp at he
        | false => rw [fp_bin _ ho, fp_lit] at he; simp at he
      | _ => simp [fp_var, fp_call, fp_ite, fp_un, fp_quant, fp_subst, fp_lit] at he
    | call t f args =>
      cases e' with
      | cast t a => exact hb'.elim
      | call t' f' args' =>
        obtain ⟨rfl, hb⟩ := hb
        obtain ⟨rfl, hb'⟩ := hb'
        simp only [fp_call, contents, List.cons_append, List.nil_append, List.append_assoc, List.cons.injEq, true_and, Content.id.injEq] at he hc
        simp only [fp_call, List.length_append, List.length_cons] at hl
        obtain ⟨h1, h2, h3⟩ := inj_list hn _ _ _ _ _ _ (by omega) hb hb' he.2 hc.2
        exact ⟨by simp only [norm, h1, hc.1], h2, h3⟩
      | bin t' o' a' b' =>
        cases ho : isAssoc o' with
        | true => rw [binAs _ _ _ _ ho, fp_call] at he; simp at he
        | false => rw [fp_bin _ ho, fp_call] at he; simp at he
      | _ => simp [fp_var, fp_call, fp_ite, fp_un, fp_quant, fp_subst, fp_lit] at he
    | ite t x a b =>
      cases e' with
      | cast t a => exact hb'.elim
      | ite t' x' a' b' =>
        obtain ⟨rfl, hb1, hb2, hb3⟩ := hb
        obtain ⟨rfl, hb1', hb2', hb3'⟩ := hb'
        simp only [fp_ite, contents, List.cons_append, List.nil_append, List.append_assoc, List.cons.injEq, true_and] at he hc
        simp only [fp_ite, List.length_append, List.length_cons] at hl
        obtain ⟨h1, h2, h3⟩ := hn _ _ _ _ _ _ (by omega) hb1 hb1' he hc
        injection h2 with _ h2
        obtain ⟨h4, h5, h6⟩ := hn _ _ _ _ _ _ (by omega) hb2 hb2' h2 h3
        injection h5 with _ h5
        obtain ⟨h7, h8, h9⟩ := hn _ _ _ _ _ _ (by omega) hb3 hb3' h5 h6
        injection h8 with _ h8
        exact ⟨by simp only [norm, h1, h4, h7], h8, h9⟩
      | bin t' o' a' b' =>
        cases ho : isAssoc o' with
        | true => rw [binAs _ _ _ _ ho, fp_ite] at he; simp at he
        | false => rw [fp_bin _ ho, fp_ite] at he; simp at he
      | _ => simp [fp_var, fp_call, fp_ite, fp_un, fp_quant, fp_subst, fp_lit] at he
    | un t o a =>
      cases e' with
      | cast t a => exact hb'.elim
      | un t' o' a' =>
        obtain ⟨rfl, hb⟩ := hb
        obtain ⟨rfl, hb'⟩ := hb'
        simp only [fp_un, contents, List.cons_append, List.nil_append, List.append_assoc, List.cons.injEq, true_and, Piece.uop.injEq] at he hc
        simp only [fp_un, List.length_append, List.length_cons] at hl
        obtain ⟨h1, h2, h3⟩ := hn _ _ _ _ _ _ (by omega) hb hb' he.2 hc
        injection h2 with _ h2
        exact ⟨by simp only [norm, h1, he.1], h2, h3⟩
      | bin t' o' a' b' =>
        cases ho : isAssoc o' with
        | true => rw [binAs _ _ _ _ ho, fp_un] at he; simp at he
        | false => rw [fp_bin _ ho, fp_un] at he; simp at he
      | _ => simp [fp_var, fp_call, fp_ite, fp_un, fp_quant, fp_subst, fp_lit] at he
    | quant t o vs trs a =>
      cases e' with
      | cast t a => exact hb'.elim
      | quant t' o' vs' trs' a' =>
        obtain ⟨rfl, hv, ht, ha⟩ := hb
        obtain ⟨rfl, hv', ht', ha'⟩ := hb'
        simp only [fp_quant, contents, List.cons_append, List.nil_append, List.append_assoc, List.cons.injEq, true_and, Piece.qop.injEq] at he hc
        simp only [fp_quant, List.length_append, List.length_cons] at hl
        obtain ⟨rfl, h2, h3⟩ := inj_vars _ _ _ _ _ _ hv hv' he.2 hc
        injection h2 with _ h2
        obtain ⟨h4, h5, h6⟩ := inj_lists hn _ _ _ _ _ _ (by omega) ht ht' h2 h3
        obtain ⟨h7, h8, h9⟩ := hn _ _ _ _ _ _ (by omega) ha ha' h5 h6
        exact ⟨by simp only [norm, h4, h7, he.1], h8, h9⟩
      | bin t' o' a' b' =>
        cases ho : isAssoc o' with
        | true => rw [binAs _ _ _ _ ho, fp_quant] at he; simp at he
        | false => rw [fp_bin _ ho, fp_quant] at he; simp at he
      | _ => simp [fp_var, fp_call, fp_ite, fp_un, fp_quant, fp_subst, fp_lit] at he
    | subst t x v a =>
      cases e' with
      | cast t a => exact hb'.elim
      | subst t' x' v' a' =>
        obtain ⟨rfl, hv, ha⟩ := hb
        obtain ⟨rfl, hv', ha'⟩ := hb'
        simp only [fp_subst, contents, List.cons_append, List.nil_append, List.append_assoc, List.cons.injEq, true_and, Content.id.injEq] at he hc
        simp only [fp_subst, List.length_append, List.length_cons] at hl
        obtain ⟨h1, h2, h3⟩ := hn _ _ _ _ _ _ (by omega) hv hv' he.2 hc.2
        injection h2 with _ h2
        obtain ⟨h4, h5, h6⟩ := hn _ _ _ _ _ _ (by omega) ha ha' h2 h3
        injection h5 with _ h5
        exact ⟨by simp only [norm, h1, h4, hc.1], h5, h6⟩
      | bin t' o' a' b' =>
        cases ho : isAssoc o' with
        | true => rw [binAs _ _ _ _ ho, fp_subst] at he; simp at he
        | false => rw [fp_bin _ ho, fp_subst] at he; simp at he
      | _ => simp [fp_var, fp_call, fp_ite, fp_un, fp_quant, fp_subst, fp_lit] at he
    | bin t o a b =>
      cases ho : isAssoc o with
      | true =>
        rw [binAs _ _ _ _ ho] at he hl
        cases e' with
        | cast t a => exact hb'.elim
        | bin t' o' a' b' =>
          cases ho' : isAssoc o' with
          | true =>
            rw [binAs _ _ _ _ ho'] at he
            simp only [List.cons_append, List.nil_append, List.append_assoc, List.cons.injEq, true_and, Piece.op.injEq] at he
            simp only [List.length_append, List.length_cons] at hl
            obtain ⟨rfl, he⟩ := he
            rw [contents_terms o, contents_terms o (.bin t' o a' b')] at hc
            obtain ⟨h1, h2, h3⟩ := inj_list hn _ _ _ _ _ _ (by omega) (bareL_terms o hb) (bareL_terms o hb') he hc
            rw [normL_map, normL_map] at h1
            exact ⟨by rw [norm_terms ho, norm_terms ho (.bin t' o a' b'), h1], h2, h3⟩
          | false => rw [fp_bin _ ho'] at he; simp at he
        | _ => simp [fp_var, fp_call, fp_ite, fp_un, fp_quant, fp_subst, fp_lit] at he
      | false =>
        rw [fp_bin _ ho] at he hl
        cases e' with
        | cast t a => exact hb'.elim
        | bin t' o' a' b' =>
          cases ho' : isAssoc o' with
          | true => rw [binAs _ _ _ _ ho'] at he; simp at he
          | false =>
            rw [fp_bin _ ho'] at he
            obtain ⟨rfl, hb1, hb2⟩ := hb
            obtain ⟨rfl, hb1', hb2'⟩ := hb'
            simp only [contents, List.cons_append, List.nil_append, List.append_assoc, List.cons.injEq, true_and, Piece.op.injEq] at he hc
            simp only [List.length_append, List.length_cons] at hl
            obtain ⟨h1, h2, h3⟩ := hn _ _ _ _ _ _ (by omega) hb1 hb1' he.2 hc
            injection h2 with _ h2
            obtain ⟨h4, h5, h6⟩ := hn _ _ _ _ _ _ (by omega) hb2 hb2' h2 h3
            injection h5 with _ h5
            obtain ⟨rfl, -⟩ := he
            exact ⟨by simp only [norm, ho, h1, h4], h5, h6⟩
        | _ => simp [fp_var, fp_call, fp_ite, fp_un, fp_quant, fp_subst, fp_lit] at he

/-- For trees with the same identifiers, literals and variables, equal fingerprints mean that the trees differ in the bracketing of associative operators
at most. -/
theorem fp_eq_iff {e e' : RExpr} (hb : Bare e) (hb' : Bare e') (hc : contents e = contents e') : fp e = fp e' ↔ Reassoc e e' := by
  constructor
  · intro h
    exact reassoc_of_norm hb hb' (inj_all _ e e' [] [] [] [] le_rfl hb hb' (by simpa using h) (by simpa using hc)).1
  · intro h
    exact h.fpIn none

end Parse
end Caesar
