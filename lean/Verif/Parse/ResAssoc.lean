import Verif.Parse.Reassoc

/-!
# Name resolution keeps reassociation

Trees that are the same up to the bracketing of associative operators are resolved in the same way: resolution fails for both with the same error, or the
results are the same up to bracketing again, with the same declarations.
-/

namespace Caesar
namespace Parse

open Front RState

/-- Both computations fail with the same error, or their results are related and they end in the same state. -/
inductive SameRun {α σ ε : Type} (R : α → α → Prop) : Except ε (α × σ) → Except ε (α × σ) → Prop where
  | ok {a a' s} (h : R a a') : SameRun R (.ok (a, s)) (.ok (a', s))
  | error (x) : SameRun R (.error x) (.error x)

theorem SameRun.bind {α β σ ε : Type} {R : α → α → Prop} {S : β → β → Prop} {m m' : Except ε (α × σ)} {k k' : α × σ → Except ε (β × σ)}
    (h : SameRun R m m') (hk : ∀ a a' s, R a a' → SameRun S (k (a, s)) (k' (a', s))) : SameRun S (m >>= k) (m' >>= k') := by
  cases h with
  | ok h => exact hk _ _ _ h
  | error x => exact .error x

theorem SameRun.of_eq {α σ ε : Type} {R : α → α → Prop} (hR : ∀ a, R a a) (m : Except ε (α × σ)) : SameRun R m m := by
  cases m with
  | ok r => exact .ok (hR r.1)
  | error x => exact .error x

theorem SameRun.symm {α σ ε : Type} {R : α → α → Prop} (hR : ∀ a b, R a b → R b a) {m m' : Except ε (α × σ)} (h : SameRun R m m') : SameRun R m' m := by
  cases h with
  | ok h => exact .ok (hR _ _ h)
  | error x => exact .error x

theorem SameRun.trans {α σ ε : Type} {R : α → α → Prop} (hR : ∀ a b c, R a b → R b c → R a c) {m m' m'' : Except ε (α × σ)} (h : SameRun R m m')
    (h' : SameRun R m' m'') : SameRun R m m'' := by
  cases h with
  | ok h =>
    cases h' with
    | ok h' => exact .ok (hR _ _ _ h h')
  | error x =>
    cases h' with
    | error => exact .error x

/-- The same step first. -/
theorem SameRun.same {α β ε : Type} {S : β → β → Prop} {σ : Type} (m : Except ε α) {k k' : α → Except ε (β × σ)} (hk : ∀ a, SameRun S (k a) (k' a)) :
    SameRun S (m >>= k) (m >>= k') := by
  cases m with
  | ok a => exact hk a
  | error x => exact .error x

/-- Lists that differ in one place. -/
def OneR (R : RExpr → RExpr → Prop) (es es' : List RExpr) : Prop := ∃ l e e' r, es = l ++ e :: r ∧ es' = l ++ e' :: r ∧ R e e'

theorem resL_one {e e' : RExpr} (h : ∀ st, SameRun Reassoc (resE e st) (resE e' st)) (r : List RExpr) :
    ∀ (l : List RExpr) (st : RState), SameRun (OneR Reassoc) (resL (l ++ e :: r) st) (resL (l ++ e' :: r) st)
  | [], st => by
    simp only [List.nil_append, resL]
    refine (h st).bind fun a a' s ha => .same _ fun q => ?_
    exact .ok ⟨[], a, a', q.1, rfl, rfl, ha⟩
  | x :: l, st => by
    simp only [List.cons_append, resL]
    refine .same _ fun p => ?_
    refine (resL_one h r l _).bind fun a a' s ha => ?_
    obtain ⟨l', b, b', r', rfl, rfl, hb⟩ := ha
    exact .ok ⟨p.1 :: l', b, b', r', rfl, rfl, hb⟩

/-- Triggers that differ in one place. -/
def OneRR (R : RExpr → RExpr → Prop) (es es' : List (List RExpr)) : Prop := ∃ L x x' S, es = L ++ x :: S ∧ es' = L ++ x' :: S ∧ OneR R x x'

theorem resLL_one {e e' : RExpr} (h : ∀ st, SameRun Reassoc (resE e st) (resE e' st)) (l r : List RExpr) (R : List (List RExpr)) :
    ∀ (L : List (List RExpr)) (st : RState), SameRun (OneRR Reassoc) (resLL (L ++ (l ++ e :: r) :: R) st) (resLL (L ++ (l ++ e' :: r) :: R) st)
  | [], st => by
    simp only [List.nil_append, resLL]
    refine (resL_one h r l st).bind fun a a' s ha => .same _ fun q => ?_
    exact .ok ⟨[], a, a', q.1, rfl, rfl, ha⟩
  | x :: L, st => by
    simp only [List.cons_append, resLL]
    refine .same _ fun p => ?_
    refine (resLL_one h l r R L _).bind fun a a' s ha => ?_
    obtain ⟨l', b, b', r', rfl, rfl, hb⟩ := ha
    exact .ok ⟨p.1 :: l', b, b', r', rfl, rfl, hb⟩

/-- Resolution does not depend on the bracketing of associative operators. -/
theorem Reassoc.resolve {e e' : RExpr} (h : Reassoc e e') : ∀ st, SameRun Reassoc (resE e st) (resE e' st) := by
  induction h with
  | refl e => exact fun st => .of_eq .refl _
  | symm _ ih => exact fun st => (ih st).symm fun _ _ => .symm
  | trans _ _ ih ih' => exact fun st => (ih st).trans (fun _ _ _ => .trans) (ih' st)
  | assoc ho a b c =>
    intro st
    simp only [resE, bind_assoc]
    refine .same _ fun p => ?_
    simp only [pure_bind]
    refine .same _ fun q => ?_
    refine .same _ fun r => ?_
    exact .ok (.assoc ho _ _ _)
  | bin t o _ _ ih ih' =>
    intro st
    simp only [resE]
    exact (ih st).bind fun a a' s ha => (ih' s).bind fun b b' s hb => .ok (.bin t o ha hb)
  | un t o _ ih =>
    intro st
    simp only [resE]
    exact (ih st).bind fun a a' s ha => .ok (.un t o ha)
  | ite t _ _ _ ih ih' ih'' =>
    intro st
    simp only [resE]
    exact (ih st).bind fun a a' s ha => (ih' s).bind fun b b' s hb => (ih'' s).bind fun c c' s hc => .ok (.ite t ha hb hc)
  | call t f l r _ ih =>
    intro st
    simp only [resE]
    refine .same _ fun g => (resL_one ih r l st).bind fun a a' s ha => ?_
    obtain ⟨l', b, b', r', rfl, rfl, hb⟩ := ha
    exact .ok (.call t g l' r' hb)
  | trigger t o vs L l r R a _ ih =>
    intro st
    simp only [resE]
    refine .same _ fun s => (resLL_one ih l r R L s).bind fun x x' s hx => .same _ fun p => .same _ fun s' => ?_
    obtain ⟨L', _, _, S', rfl, rfl, l', b, b', r', rfl, rfl, hb⟩ := hx
    exact .ok (.trigger t o vs L' l' r' S' p.1 hb)
  | quant t o vs trs _ ih =>
    intro st
    simp only [resE]
    refine .same _ fun s => .same _ fun q => (ih q.2).bind fun x x' s hx => .same _ fun s' => ?_
    exact .ok (.quant t o vs q.1 hx)
  | subst t x _ _ ih ih' =>
    intro st
    simp only [resE]
    refine (ih st).bind fun v v' s hv => .same _ fun s₁ => (ih' s₁).bind fun a a' s ha => .same _ fun s' => ?_
    exact .ok (.subst t x hv ha)

theorem except_bind {ε α β : Type} {m : Except ε α} {k : α → Except ε β} {b : β} (h : (m >>= k) = .ok b) : ∃ a, m = .ok a ∧ k a = .ok b := by
  cases m with
  | ok a => exact ⟨a, rfl, h⟩
  | error x => cases h

mutual

/-- Resolution adds neither types nor casts. -/
theorem resE_bare : ∀ (e : RExpr) {st st' : RState} {e' : RExpr}, Bare e → resE e st = .ok (e', st') → Bare e'
  | .var t x, st, st', e', hb, h => by
    simp only [resE] at h
    obtain ⟨y, -, h⟩ := except_bind h
    cases h
    exact hb
  | .call t f args, st, st', e', hb, h => by
    simp only [resE] at h
    obtain ⟨y, -, h⟩ := except_bind h
    obtain ⟨q, hq, h⟩ := except_bind h
    cases h
    exact ⟨hb.1, resL_bare args hb.2 hq⟩
  | .ite t c a b, st, st', e', hb, h => by
    simp only [resE] at h
    obtain ⟨p, hp, h⟩ := except_bind h
    obtain ⟨q, hq, h⟩ := except_bind h
    obtain ⟨r, hr, h⟩ := except_bind h
    cases h
    exact ⟨hb.1, resE_bare c hb.2.1 hp, resE_bare a hb.2.2.1 hq, resE_bare b hb.2.2.2 hr⟩
  | .bin t o a b, st, st', e', hb, h => by
    simp only [resE] at h
    obtain ⟨p, hp, h⟩ := except_bind h
    obtain ⟨q, hq, h⟩ := except_bind h
    cases h
    exact ⟨hb.1, resE_bare a hb.2.1 hp, resE_bare b hb.2.2 hq⟩
  | .un t o a, st, st', e', hb, h => by
    simp only [resE] at h
    obtain ⟨p, hp, h⟩ := except_bind h
    cases h
    exact ⟨hb.1, resE_bare a hb.2 hp⟩
  | .cast t a, st, st', e', hb, h => hb.elim
  | .quant t o vs trs a, st, st', e', hb, h => by
    simp only [resE] at h
    obtain ⟨p, hp, h⟩ := except_bind h
    obtain ⟨q, hq, h⟩ := except_bind h
    obtain ⟨r, hr, h⟩ := except_bind h
    obtain ⟨s, hs, h⟩ := except_bind h
    cases h
    exact ⟨hb.1, hb.2.1, resLL_bare trs hb.2.2.1 hq, resE_bare a hb.2.2.2 hr⟩
  | .subst t x v a, st, st', e', hb, h => by
    simp only [resE] at h
    obtain ⟨p, hp, h⟩ := except_bind h
    obtain ⟨q, hq, h⟩ := except_bind h
    obtain ⟨r, hr, h⟩ := except_bind h
    obtain ⟨s, hs, h⟩ := except_bind h
    cases h
    exact ⟨hb.1, resE_bare v hb.2.1 hp, resE_bare a hb.2.2 hr⟩
  | .lit t l, st, st', e', hb, h => by
    cases h
    exact hb

theorem resL_bare : ∀ (es : List RExpr) {st st' : RState} {es' : List RExpr}, BareL es → resL es st = .ok (es', st') → BareL es'
  | [], _, _, _, hb, h => by
    cases h
    exact hb
  | e :: es, st, st', es', hb, h => by
    simp only [resL] at h
    obtain ⟨p, hp, h⟩ := except_bind h
    obtain ⟨q, hq, h⟩ := except_bind h
    cases h
    exact ⟨resE_bare e hb.1 hp, resL_bare es hb.2 hq⟩

theorem resLL_bare : ∀ (es : List (List RExpr)) {st st' : RState} {es' : List (List RExpr)}, BareLL es → resLL es st = .ok (es', st') → BareLL es'
  | [], _, _, _, hb, h => by
    cases h
    exact hb
  | e :: es, st, st', es', hb, h => by
    simp only [resLL] at h
    obtain ⟨p, hp, h⟩ := except_bind h
    obtain ⟨q, hq, h⟩ := except_bind h
    cases h
    exact ⟨resL_bare e hb.1 hp, resLL_bare es hb.2 hq⟩

end

end Parse
end Caesar
