import Verif.ProofRules.LoopsSound

/-!
# Encodings with larger `k` (proofs)
-/

open scoped ENNReal NNReal

namespace Caesar
set_option linter.unusedSectionVars false

/-- `S` and `S'` are the same program, except that `k`-induction annotations of `S'` may have larger `k`.
`@invariant(I)` counts as `@k_induction(1, I)`. -/
inductive Stmt.LargerK : Stmt → Stmt → Prop where
  | refl (S : Stmt) : LargerK S S
  | seq {a a' b b' : Stmt} : LargerK a a' → LargerK b b' → LargerK (.seq a b) (.seq a' b')
  | demonic {a a' b b' : Stmt} : LargerK a a' → LargerK b b' → LargerK (.demonic a b) (.demonic a' b')
  | angelic {a a' b b' : Stmt} : LargerK a a' → LargerK b b' → LargerK (.angelic a b) (.angelic a' b')
  | additive {a a' b b' : Stmt} : LargerK a a' → LargerK b b' → LargerK (.additive a b) (.additive a' b')
  | ite {c : Expr .bool} {a a' b b' : Stmt} : LargerK a a' → LargerK b b' → LargerK (.ite c a b) (.ite c a' b')
  | while {c : Expr .bool} {a a' : Stmt} : LargerK a a' → LargerK (.while c a) (.while c a')
  | annot {an : Annot} {a a' : Stmt} : LargerK a a' → LargerK (.annot an a) (.annot an a')
  | kInduction {k k' : Nat} {I : Expr .eureal} {a a' : Stmt} : k ≤ k' → LargerK a a' →
      LargerK (.annot (.kInduction k I) a) (.annot (.kInduction k' I) a')
  | invariant {k' : Nat} {I : Expr .eureal} {a a' : Stmt} : 1 ≤ k' → LargerK a a' →
      LargerK (.annot (.invariant I) a) (.annot (.kInduction k' I) a')

section
variable [Doms] [Interp]

theorem extendSem_mono_fun {d : Dir} {Φ Φ' : Exp → Exp} (hΦ : Monotone Φ) (I : Exp)
    (h : ∀ X, d.Le (Φ X) (Φ' X)) (j : Nat) : d.Le (extendSem d Φ I j) (extendSem d Φ' I j) := by
  induction j with
  | zero => exact Dir.Le.refl _ _
  | succ j ih =>
    cases d with
    | down => exact fun σ => max_le_max le_rfl ((hΦ ih σ).trans (h _ σ))
    | up => exact fun σ => min_le_min le_rfl ((h _ σ).trans (hΦ ih σ))

theorem extendSem_mono_nat {d : Dir} {Φ : Exp → Exp} (hΦ : Monotone Φ) (I : Exp) {j j' : Nat} (h : j ≤ j') :
    d.Le (extendSem d Φ I j) (extendSem d Φ I j') := by
  induction h with
  | refl => exact Dir.Le.refl _ _
  | step _ ih =>
    refine ih.trans ?_
    cases d with
    | down => exact extendSem_le_succ hΦ I _
    | up => exact extendSem_succ_le hΦ I _

/-- Inductivity is preserved when the loop function and `k` grow. -/
theorem Inductive.mono {d : Dir} {Φ Φ' : Exp → Exp} (hΦ : Monotone Φ) (hΦ' : Monotone Φ') {I : Exp}
    (h : ∀ X, d.Le (Φ X) (Φ' X)) {k k' : Nat} (hk : k ≤ k') {xs xs' : List Var} (hx : ∀ v, v ∈ xs' → v ∈ xs)
    {σ : Env} (hI : Inductive d Φ I k xs σ) : Inductive d Φ' I k' xs' σ := by
  intro σ' hs
  have h1 := hI σ' fun v hv => hs v fun hv' => hv (hx v hv')
  have h2 : d.Le (Φ (extendSem d Φ I (k - 1))) (Φ' (extendSem d Φ' I (k' - 1))) :=
    (h _).trans (Dir.Le.apply hΦ' ((extendSem_mono_fun hΦ I h _).trans (extendSem_mono_nat hΦ' I (by omega))))
  cases d with
  | down => exact le_trans h1 (h2 σ')
  | up => exact le_trans (h2 σ') h1

theorem transform_larger {d : Dir} {C : SemCtx} (hC : ∀ l f a, Monotone (C.call l f a)) {I : Expr .eureal} {k k' : Nat}
    (hk : k ≤ k') {c : Expr .bool} {b b' : Stmt} (hb : b.NoNeg) (hb' : b'.NoNeg)
    (hm : ∀ v, v ∈ b'.modified → v ∈ b.modified) (hle : ∀ φ, d.Le (vcSem C b φ) (vcSem C b' φ)) (φ : Exp) :
    d.Le (vcSem C (transformKInduction d k I c b) φ) (vcSem C (transformKInduction d k' I c b') φ) := by
  classical
  have h1 : ∀ σ, Inductive d (loopFun C c b φ) I.ev k b.modified σ →
      Inductive d (loopFun C c b' φ) I.ev k' b'.modified σ := fun σ =>
    Inductive.mono (loopFun_mono (vcSem_mono C hC hb) c φ) (loopFun_mono (vcSem_mono C hC hb') c φ)
      (fun X => loopFun_le (hle X)) hk hm
  cases d with
  | down =>
    intro σ
    rw [transformKInduction_sem, transformKInduction_sem]
    by_cases hi : Inductive .down (loopFun C c b φ) I.ev k b.modified σ
    · rw [if_pos hi, if_pos (h1 σ hi)]
    · rw [if_neg hi]; exact zero_le
  | up =>
    intro σ
    rw [transformKInduction_sem, transformKInduction_sem]
    by_cases hi : Inductive .up (loopFun C c b φ) I.ev k b.modified σ
    · rw [if_pos hi, if_pos (h1 σ hi)]
    · rw [if_neg hi]; exact le_top

theorem iterate_larger {d : Dir} {Φ Φ' : Exp → Exp} (hΦ : Monotone Φ) (h : ∀ X, d.Le (Φ X) (Φ' X)) (X : Exp) (n : Nat) :
    d.Le (Φ^[n] X) (Φ'^[n] X) := by
  induction n with
  | zero => exact Dir.Le.refl _ _
  | succ n ih =>
    rw [Function.iterate_succ_apply', Function.iterate_succ_apply']
    exact (Dir.Le.apply hΦ ih).trans (h _)

theorem while_larger {d : Dir} {C : SemCtx} {c : Expr .bool} {b b' : Stmt}
    (hle : ∀ φ, d.Le (vcSem C b φ) (vcSem C b' φ)) (φ : Exp) :
    d.Le (vcSem C (.while c b) φ) (vcSem C (.while c b') φ) := by
  rw [vcSem_while, vcSem_while]
  have h := fun X => loopFun_le (c := c) (φ := φ) (hle X)
  cases d with
  | down => exact fixpoint_mono h
  | up => exact fixpoint_mono h

end

theorem modified_encodeExtend {c : Expr .bool} {b next : Stmt} {I : Expr .eureal} {d : Dir} {v : Var}
    (hn : v ∉ next.modified) {k : Nat} (h : v ∈ (encodeExtend c b k I d next).modified) : v ∈ b.modified := by
  induction k with
  | zero => exact absurd h hn
  | succ k ih =>
    simp only [encodeExtend, Stmt.block, encodeIter, Stmt.modified, List.mem_append, List.append_nil,
      List.nil_append] at h
    exact h.elim id ih

theorem modified_transform {c : Expr .bool} {b : Stmt} {k : Nat} {I : Expr .eureal} {d : Dir} {v : Var} :
    v ∈ (transformKInduction d k I c b).modified ↔ v ∈ b.modified := by
  refine ⟨fun h => ?_, transform_modified⟩
  simp only [transformKInduction, Stmt.block, encodeIter, wrapError, wrapSuccess, Stmt.modified, List.mem_append,
    List.append_nil, List.nil_append] at h
  refine h.elim id (modified_encodeExtend ?_)
  split <;> simp [parkIterationTerminator, iterationTerminator, Stmt.block, wrapError, wrapSuccess, Stmt.modified]

theorem encodeUnroll_ne_while {c c' : Expr .bool} {b b' : Stmt} {k : Nat} {t : Expr .eureal} {d : Dir} :
    encodeUnroll c b k (heyConst t d) ≠ .while c' b' := by
  cases k <;> exact Stmt.noConfusion

theorem modified_unroll {c : Expr .bool} {b b' : Stmt} (hm : ∀ v, v ∈ b'.modified → v ∈ b.modified) {k : Nat}
    {t : Expr .eureal} {d : Dir} {v : Var} (h : v ∈ (encodeUnroll c b' k (heyConst t d)).modified) :
    v ∈ (encodeUnroll c b k (heyConst t d)).modified := by
  induction k with
  | zero => exact h
  | succ k ih =>
    simp only [encodeUnroll, Stmt.block, encodeIter, Stmt.modified, List.mem_append, List.append_nil] at h ⊢
    exact h.imp (hm v) ih

section
variable [Doms] [Interp]

/-- The value of the encoding does not get worse when `k` grows anywhere in the program. -/
theorem encodeLoops_larger {d : Dir} {C : SemCtx} (hC : ∀ l f a, Monotone (C.call l f a)) {S S' : Stmt}
    (hK : S.LargerK S') : ∀ {T T' : Stmt}, S.NoNeg → encodeLoops d S = .ok T → encodeLoops d S' = .ok T' →
      (T'.NoNeg ∧ (∀ φ, d.Le (vcSem C T φ) (vcSem C T' φ)) ∧ ∀ v, v ∈ T'.modified → v ∈ T.modified) ∧
      ∀ c b, T = .while c b → ∃ b', T' = .while c b' ∧ ∀ φ, d.Le (vcSem C b φ) (vcSem C b' φ) := by
  have comb : ∀ {X X' Y Y' : List Var}, (∀ v, v ∈ X' → v ∈ X) → (∀ v, v ∈ Y' → v ∈ Y) →
      ∀ v, v ∈ X' ++ Y' → v ∈ X ++ Y := fun h1 h2 v h =>
    List.mem_append.2 (Or.imp (h1 v) (h2 v) (List.mem_append.1 h))
  induction hK with
  | refl S =>
    intro T T' hN h h'
    cases h.symm.trans h'
    exact ⟨⟨encodeLoops_noNeg h hN, fun _ => Dir.Le.refl _ _, fun _ => id⟩, fun c b hT => ⟨b, hT, fun _ => Dir.Le.refl _ _⟩⟩
  | @seq a a' b b' ka kb iha ihb =>
    intro T T' hN h h'
    obtain ⟨p, q, h1, h2, rfl⟩ := encode_seq_ok h
    obtain ⟨p', q', h1', h2', rfl⟩ := encode_seq_ok h'
    obtain ⟨⟨ia1, ia2, ia3⟩, -⟩ := iha hN.1 h1 h1'
    obtain ⟨⟨ib1, ib2, ib3⟩, -⟩ := ihb hN.2 h2 h2'
    refine ⟨⟨⟨ia1, ib1⟩, fun φ => ?_, comb ia3 ib3⟩, fun _ _ h => (nomatch h)⟩
    exact (Dir.Le.apply (vcSem_mono C hC (encodeLoops_noNeg h1 hN.1)) (ib2 φ)).trans (ia2 _)
  | demonic ka kb iha ihb =>
    intro T T' hN h h'
    obtain ⟨p, q, h1, h2, rfl⟩ := encode_seq_ok h
    obtain ⟨p', q', h1', h2', rfl⟩ := encode_seq_ok h'
    obtain ⟨⟨ia1, ia2, ia3⟩, -⟩ := iha hN.1 h1 h1'
    obtain ⟨⟨ib1, ib2, ib3⟩, -⟩ := ihb hN.2 h2 h2'
    exact ⟨⟨⟨ia1, ib1⟩, fun φ => Dir.Le.pointwise (f := fun _ x y => min x y) (fun _ _ _ _ _ => min_le_min)
      (ia2 φ) (ib2 φ), comb ia3 ib3⟩, fun _ _ h => (nomatch h)⟩
  | angelic ka kb iha ihb =>
    intro T T' hN h h'
    obtain ⟨p, q, h1, h2, rfl⟩ := encode_seq_ok h
    obtain ⟨p', q', h1', h2', rfl⟩ := encode_seq_ok h'
    obtain ⟨⟨ia1, ia2, ia3⟩, -⟩ := iha hN.1 h1 h1'
    obtain ⟨⟨ib1, ib2, ib3⟩, -⟩ := ihb hN.2 h2 h2'
    exact ⟨⟨⟨ia1, ib1⟩, fun φ => Dir.Le.pointwise (f := fun _ x y => max x y) (fun _ _ _ _ _ => max_le_max)
      (ia2 φ) (ib2 φ), comb ia3 ib3⟩, fun _ _ h => (nomatch h)⟩
  | additive ka kb iha ihb =>
    intro T T' hN h h'
    obtain ⟨p, q, h1, h2, rfl⟩ := encode_seq_ok h
    obtain ⟨p', q', h1', h2', rfl⟩ := encode_seq_ok h'
    obtain ⟨⟨ia1, ia2, ia3⟩, -⟩ := iha hN.1 h1 h1'
    obtain ⟨⟨ib1, ib2, ib3⟩, -⟩ := ihb hN.2 h2 h2'
    exact ⟨⟨⟨ia1, ib1⟩, fun φ => Dir.Le.pointwise (f := fun _ x y => x + y) (fun _ _ _ _ _ => add_le_add)
      (ia2 φ) (ib2 φ), comb ia3 ib3⟩, fun _ _ h => (nomatch h)⟩
  | @ite c a a' b b' ka kb iha ihb =>
    classical
    intro T T' hN h h'
    obtain ⟨p, q, h1, h2, rfl⟩ := encode_seq_ok h
    obtain ⟨p', q', h1', h2', rfl⟩ := encode_seq_ok h'
    obtain ⟨⟨ia1, ia2, ia3⟩, -⟩ := iha hN.1 h1 h1'
    obtain ⟨⟨ib1, ib2, ib3⟩, -⟩ := ihb hN.2 h2 h2'
    exact ⟨⟨⟨ia1, ib1⟩, fun φ => Dir.Le.pointwise (f := fun σ x y => if c.tv σ then x else y)
      (fun σ x x' y y' hx hy => by
        show ite _ _ _ ≤ ite _ _ _
        split
        · exact hx
        · exact hy) (ia2 φ) (ib2 φ), comb ia3 ib3⟩, fun _ _ h => (nomatch h)⟩
  | «while» k ih =>
    intro T T' hN h h'
    obtain ⟨s, h1, h2⟩ := bind_ok h
    obtain ⟨s', h1', h2'⟩ := bind_ok h'
    cases h2
    cases h2'
    obtain ⟨⟨i1, i2, i3⟩, -⟩ := ih hN h1 h1'
    refine ⟨⟨i1, while_larger i2, i3⟩, fun _ _ h => ?_⟩
    cases h
    exact ⟨s', rfl, i2⟩
  | @annot an a a' k ih =>
    intro T T' hN h h'
    obtain ⟨s, h1, h2⟩ := bind_ok h
    obtain ⟨s', h1', h2'⟩ := bind_ok h'
    have hs : s.NoNeg := encodeLoops_noNeg h1 hN
    obtain ⟨⟨i1, i2, i3⟩, i4⟩ := ih hN h1 h1'
    rcases encodeAnnot_cases h2 with ⟨n, rfl, rfl⟩ | ⟨I, c, b, rfl, rfl, rfl⟩ | ⟨k, I, c, b, rfl, hk, rfl, rfl⟩ |
      ⟨k, t, c, b, rfl, rfl, rfl⟩
    · cases h2'
      exact ⟨⟨i1, i2, i3⟩, fun _ _ h => (nomatch h)⟩
    · obtain ⟨b', rfl, i5⟩ := i4 c b rfl
      cases h2'
      exact ⟨⟨transform_noNeg (b := b') i1 _ _ _, transform_larger hC le_rfl (b := b) (b' := b') hs i1 i3 i5,
        fun v hv => (modified_transform (b := b)).2 (i3 v ((modified_transform (b := b')).1 hv))⟩, fun _ _ h => (nomatch h)⟩
    · obtain ⟨b', rfl, i5⟩ := i4 c b rfl
      have h3 : encodeAnnot d (.kInduction k I) (.while c b') = .ok (transformKInduction d k I c b') := if_neg hk
      obtain rfl := Except.ok.inj (h3.symm.trans h2')
      exact ⟨⟨transform_noNeg (b := b') i1 _ _ _, transform_larger hC le_rfl (b := b) (b' := b') hs i1 i3 i5,
        fun v hv => (modified_transform (b := b)).2 (i3 v ((modified_transform (b := b')).1 hv))⟩, fun _ _ h => (nomatch h)⟩
    · obtain ⟨b', rfl, i5⟩ := i4 c b rfl
      cases h2'
      refine ⟨⟨encodeUnroll_noNeg (b := b') (next := heyConst t d) i1 ⟨trivial, trivial, trivial⟩ k, fun φ => ?_,
        fun v hv => modified_unroll (b := b) (b' := b') i3 hv⟩, fun _ _ h => (encodeUnroll_ne_while h).elim⟩
      rw [encodeUnroll_sem, encodeUnroll_sem, heyConst_sem]
      exact iterate_larger (loopFun_mono (vcSem_mono C hC (S := b) hs) c φ) (fun X => loopFun_le (i5 X)) _ _
  | @kInduction k k' I a a' hkk K ih =>
    intro T T' hN h h'
    obtain ⟨s, h1, h2⟩ := bind_ok h
    obtain ⟨s', h1', h2'⟩ := bind_ok h'
    have hs : s.NoNeg := encodeLoops_noNeg h1 hN
    obtain ⟨⟨i1, i2, i3⟩, i4⟩ := ih hN h1 h1'
    rcases encodeAnnot_cases h2 with ⟨n, he, _⟩ | ⟨I, c, b, he, _⟩ | ⟨k, I, c, b, he, hk, rfl, rfl⟩ | ⟨k, t, c, b, he, _⟩ <;>
      cases he
    obtain ⟨b', rfl, i5⟩ := i4 c b rfl
    have h3 : encodeAnnot d (.kInduction k' I) (.while c b') = .ok (transformKInduction d k' I c b') :=
      if_neg (by omega)
    obtain rfl := Except.ok.inj (h3.symm.trans h2')
    exact ⟨⟨transform_noNeg (b := b') i1 _ _ _, transform_larger hC hkk (b := b) (b' := b') hs i1 i3 i5,
      fun v hv => (modified_transform (b := b)).2 (i3 v ((modified_transform (b := b')).1 hv))⟩, fun _ _ h => (nomatch h)⟩
  | @invariant k' I a a' hkk K ih =>
    intro T T' hN h h'
    obtain ⟨s, h1, h2⟩ := bind_ok h
    obtain ⟨s', h1', h2'⟩ := bind_ok h'
    have hs : s.NoNeg := encodeLoops_noNeg h1 hN
    obtain ⟨⟨i1, i2, i3⟩, i4⟩ := ih hN h1 h1'
    rcases encodeAnnot_cases h2 with ⟨n, he, _⟩ | ⟨I, c, b, he, rfl, rfl⟩ | ⟨k, I, c, b, he, _⟩ | ⟨k, t, c, b, he, _⟩ <;>
      cases he
    obtain ⟨b', rfl, i5⟩ := i4 c b rfl
    have h3 : encodeAnnot d (.kInduction k' I) (.while c b') = .ok (transformKInduction d k' I c b') :=
      if_neg (by omega)
    obtain rfl := Except.ok.inj (h3.symm.trans h2')
    exact ⟨⟨transform_noNeg (b := b') i1 _ _ _, transform_larger hC hkk (b := b) (b' := b') hs i1 i3 i5,
      fun v hv => (modified_transform (b := b)).2 (i3 v ((modified_transform (b := b')).1 hv))⟩, fun _ _ h => (nomatch h)⟩

end

end Caesar
