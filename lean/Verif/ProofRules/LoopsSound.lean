import Verif.ProofRules.LoopsSem

/-!
# Soundness of encoding all loops of a program (proofs)
-/

open scoped ENNReal NNReal

namespace Caesar
set_option linter.unusedSectionVars false

/-- Fixed point for which (k-)induction is sound (`src/proof_rules/induction.rs:97-106`). -/
def Dir.inductionSem : Dir → LoopSem
  | .down => .gfp
  | .up => .lfp

/-- All loop annotations are `@invariant` or `@k_induction`. -/
def Stmt.OnlyInduction : Stmt → Prop
  | .seq a b => a.OnlyInduction ∧ b.OnlyInduction
  | .demonic a b => a.OnlyInduction ∧ b.OnlyInduction
  | .angelic a b => a.OnlyInduction ∧ b.OnlyInduction
  | .additive a b => a.OnlyInduction ∧ b.OnlyInduction
  | .ite _ a b => a.OnlyInduction ∧ b.OnlyInduction
  | .while _ s => s.OnlyInduction
  | .annot (.invariant _) s => s.OnlyInduction
  | .annot (.kInduction _ _) s => s.OnlyInduction
  | .annot (.slicing _) s => s.OnlyInduction
  | .annot _ _ => False
  | _ => True

/-- Scoping: each variable in `T body`, for every annotated loop, is local to the loop: it does not occur in the
invariant or guard, the body overwrites it before reading it, and what follows the loop (`A`: the variables that
are irrelevant there) does not depend on it. -/
def Stmt.Local (T : Stmt → Var → Prop) (A : Var → Prop) : Stmt → Prop
  | .seq a b => b.Local T A ∧ a.Local T (fun v => ¬ b.Reads v ∧ (A v ∨ b.Inits v))
  | .demonic a b => a.Local T A ∧ b.Local T A
  | .angelic a b => a.Local T A ∧ b.Local T A
  | .additive a b => a.Local T A ∧ b.Local T A
  | .ite _ a b => a.Local T A ∧ b.Local T A
  | .while c s => s.Local T (fun v => A v ∧ ¬ c.Free v ∧ ¬ s.Reads v)
  | .annot an (.while c s) =>
      (∀ v, T s v → A v ∧ ¬ an.Reads v ∧ ¬ c.Free v ∧ ¬ s.Reads v) ∧
      s.Local T (fun v => A v ∧ ¬ an.Reads v ∧ ¬ c.Free v ∧ ¬ s.Reads v)
  | .annot _ s => s.Local T A
  | _ => True

/-- Everything a loop body changes without it being reported as modified is local to the loop. -/
abbrev Stmt.LocalsOk (A : Var → Prop) (S : Stmt) : Prop :=
  S.Local (fun s v => s.Touched v ∧ v ∉ s.modified) A

/-- The variables declared in a loop body (and never assigned to) are local to the loop. This is what scoping
demands of every program. -/
abbrev Stmt.DeclsLocal (A : Var → Prop) (S : Stmt) : Prop :=
  S.Local (fun s v => v ∈ s.declared ∧ v ∉ s.modified) A

/-- In every annotated loop, the havocked variables are also assigned to or declared. -/
def Stmt.HavocsReported : Stmt → Prop
  | .seq a b => a.HavocsReported ∧ b.HavocsReported
  | .demonic a b => a.HavocsReported ∧ b.HavocsReported
  | .angelic a b => a.HavocsReported ∧ b.HavocsReported
  | .additive a b => a.HavocsReported ∧ b.HavocsReported
  | .ite _ a b => a.HavocsReported ∧ b.HavocsReported
  | .while _ s => s.HavocsReported
  | .annot _ s => (∀ v, s.Havocs v → v ∈ s.modified ∨ v ∈ s.declared) ∧ s.HavocsReported
  | _ => True

theorem Stmt.localsOk_aux (S : Stmt) :
    (∀ A, S.DeclsLocal A → S.HavocsReported → S.LocalsOk A) ∧
    (∀ c b, S = .while c b → ∀ A, b.DeclsLocal A → b.HavocsReported → b.LocalsOk A) := by
  induction S with
  | seq a b iha ihb =>
    exact ⟨fun A h h' => ⟨ihb.1 _ h.1 h'.2, iha.1 _ h.2 h'.1⟩, fun _ _ h => by cases h⟩
  | demonic a b iha ihb | angelic a b iha ihb | additive a b iha ihb | ite c a b iha ihb =>
    exact ⟨fun A h h' => ⟨iha.1 _ h.1 h'.1, ihb.1 _ h.2 h'.2⟩, fun _ _ h => by cases h⟩
  | «while» c s ih =>
    exact ⟨fun A h h' => ih.1 _ h h', fun _ _ h => by cases h; exact ih.1⟩
  | annot an s ih =>
    refine ⟨fun A h h' => ?_, fun _ _ h => by cases h⟩
    cases s with
    | «while» c b =>
      refine ⟨fun v hv => h.1 v ⟨?_, hv.2⟩, ih.2 c b rfl _ h.2 h'.2⟩
      rcases Stmt.touched_cases hv.1 with hm | hd | hh
      · exact absurd hm hv.2
      · exact hd
      · exact (h'.1 v hh).resolve_left hv.2
    | _ => exact ih.1 A h h'.2
  | _ => exact ⟨fun _ _ _ => trivial, fun _ _ h => by cases h⟩

theorem Stmt.localsOk_of_decls {S : Stmt} {A : Var → Prop} (h : S.DeclsLocal A) (h' : S.HavocsReported) :
    S.LocalsOk A := S.localsOk_aux.1 A h h'

/-! ## Shape of encoded statements -/

theorem encode_seq_ok {d : Dir} {a b S' : Stmt} {f : Stmt → Stmt → Stmt}
    (h : (do let a' ← encodeLoops d a; let b' ← encodeLoops d b; return f a' b') = Except.ok S') :
    ∃ a' b', encodeLoops d a = .ok a' ∧ encodeLoops d b = .ok b' ∧ S' = f a' b' := by
  obtain ⟨a', h1, h⟩ := bind_ok h
  obtain ⟨b', h2, h⟩ := bind_ok h
  cases h
  exact ⟨a', b', h1, h2, rfl⟩

theorem encodeAnnot_cases {d : Dir} {an : Annot} {s S' : Stmt} (h : encodeAnnot d an s = .ok S') :
    (∃ n, an = .slicing n ∧ S' = .annot (.slicing n) s) ∨
    (∃ I c b, an = .invariant I ∧ s = .while c b ∧ S' = transformKInduction d 1 I c b) ∨
    (∃ k I c b, an = .kInduction k I ∧ k ≠ 0 ∧ s = .while c b ∧ S' = transformKInduction d k I c b) ∨
    (∃ k t c b, an = .unroll k t ∧ s = .while c b ∧ S' = encodeUnroll c b k (heyConst t d)) := by
  cases an with
  | slicing n => cases h; exact Or.inl ⟨n, rfl, rfl⟩
  | invariant I =>
    cases s with
    | «while» c b => cases h; exact Or.inr (Or.inl ⟨I, c, b, rfl, rfl, rfl⟩)
    | _ => cases h
  | kInduction k I =>
    cases s with
    | «while» c b =>
      simp only [encodeAnnot] at h
      split at h
      · cases h
      next hk => cases h; exact Or.inr (Or.inr (Or.inl ⟨k, I, c, b, rfl, hk, rfl, rfl⟩))
    | _ => cases h
  | unroll k t =>
    cases s with
    | «while» c b => cases h; exact Or.inr (Or.inr (Or.inr ⟨k, t, c, b, rfl, rfl, rfl⟩))
    | _ => cases h
  | omegaInvariant _ _ => cases s <;> cases h
  | past _ _ _ => cases s <;> cases h
  | ost _ _ _ _ => cases s <;> cases h
  | ast _ _ _ _ _ => cases s <;> cases h

theorem encode_while_inv {d : Dir} {s : Stmt} {c : Expr .bool} {b' : Stmt}
    (h : encodeLoops d s = .ok (.while c b')) : ∃ b, s = .while c b ∧ encodeLoops d b = .ok b' := by
  cases s with
  | «while» c0 b =>
    obtain ⟨s', h1, h2⟩ := bind_ok h
    cases h2
    exact ⟨b, rfl, h1⟩
  | annot an s =>
    obtain ⟨s', h1, h2⟩ := bind_ok h
    rcases encodeAnnot_cases h2 with ⟨n, _, h⟩ | ⟨I, c, b, _, _, h⟩ | ⟨k, I, c, b, _, _, _, h⟩ |
      ⟨k, t, c, b, _, _, h⟩
    · cases h
    · cases h
    · cases h
    · cases k <;> cases h
  | seq a b => obtain ⟨_, _, _, _, h⟩ := encode_seq_ok h; cases h
  | demonic a b => obtain ⟨_, _, _, _, h⟩ := encode_seq_ok h; cases h
  | angelic a b => obtain ⟨_, _, _, _, h⟩ := encode_seq_ok h; cases h
  | additive a b => obtain ⟨_, _, _, _, h⟩ := encode_seq_ok h; cases h
  | ite _ a b => obtain ⟨_, _, _, _, h⟩ := encode_seq_ok h; cases h
  | _ => cases h

/-! ## Properties preserved by the encoding -/

theorem encodeExtend_noNeg {c : Expr .bool} {b next : Stmt} (hb : b.NoNeg) (hn : next.NoNeg) (k : Nat)
    (I : Expr .eureal) (d : Dir) : (encodeExtend c b k I d next).NoNeg := by
  induction k with
  | zero => exact hn
  | succ k ih => exact ⟨trivial, ⟨⟨hb, ih⟩, trivial⟩, trivial⟩

theorem terminator_noNeg (k : Nat) (I : Expr .eureal) (d : Dir) :
    (if k = 1 then parkIterationTerminator I d else iterationTerminator I d).NoNeg := by
  split <;> exact ⟨trivial, trivial, trivial⟩

theorem transform_noNeg {c : Expr .bool} {b : Stmt} (hb : b.NoNeg) (k : Nat) (I : Expr .eureal) (d : Dir) :
    (transformKInduction d k I c b).NoNeg :=
  ⟨trivial, trivial, trivial, trivial, ⟨⟨hb, encodeExtend_noNeg hb (terminator_noNeg k I d) _ _ _⟩, trivial⟩,
    trivial⟩

theorem encodeUnroll_noNeg {c : Expr .bool} {b next : Stmt} (hb : b.NoNeg) (hn : next.NoNeg) (k : Nat) :
    (encodeUnroll c b k next).NoNeg := by
  induction k with
  | zero => exact hn
  | succ k ih => exact ⟨⟨⟨hb, ih⟩, trivial⟩, trivial⟩

theorem encodeLoops_noNeg {d : Dir} {S S' : Stmt} (h : encodeLoops d S = .ok S') (hS : S.NoNeg) : S'.NoNeg := by
  induction S generalizing S' with
  | seq a b iha ihb | demonic a b iha ihb | angelic a b iha ihb | additive a b iha ihb | ite c a b iha ihb =>
    obtain ⟨a', b', h1, h2, rfl⟩ := encode_seq_ok h
    exact ⟨iha h1 hS.1, ihb h2 hS.2⟩
  | «while» c s ih =>
    obtain ⟨s', h1, h2⟩ := bind_ok h
    cases h2
    exact ih (S' := s') h1 hS
  | annot an s ih =>
    obtain ⟨s', h1, h2⟩ := bind_ok h
    have hs := ih h1 hS
    rcases encodeAnnot_cases h2 with ⟨n, rfl, rfl⟩ | ⟨I, c, b, rfl, rfl, rfl⟩ | ⟨k, I, c, b, rfl, hk, rfl, rfl⟩ |
      ⟨k, t, c, b, rfl, rfl, rfl⟩
    · exact hs
    · exact transform_noNeg (b := b) hs _ _ _
    · exact transform_noNeg (b := b) hs _ _ _
    · exact encodeUnroll_noNeg (b := b) (next := heyConst t d) hs ⟨trivial, trivial, trivial⟩ k
  | _ => cases h; exact hS

theorem encodeLoops_inits {d : Dir} {S S' : Stmt} {v : Var} (h : encodeLoops d S = .ok S') (hS : S.Inits v) :
    S'.Inits v := by
  induction S generalizing S' with
  | seq a b iha ihb =>
    obtain ⟨a', b', h1, h2, rfl⟩ := encode_seq_ok h
    exact Or.imp (iha h1) (ihb h2) hS
  | demonic a b iha ihb | angelic a b iha ihb | additive a b iha ihb | ite c a b iha ihb =>
    obtain ⟨a', b', h1, h2, rfl⟩ := encode_seq_ok h
    exact And.imp (iha h1) (ihb h2) hS
  | «while» c s ih => exact hS.elim
  | annot an s ih =>
    obtain ⟨s', h1, h2⟩ := bind_ok h
    rcases encodeAnnot_cases h2 with ⟨n, rfl, rfl⟩ | ⟨I, c, b, rfl, rfl, rfl⟩ | ⟨k, I, c, b, rfl, hk, rfl, rfl⟩ |
      ⟨k, t, c, b, rfl, rfl, rfl⟩
    · exact (ih h1 hS : s'.Inits v)
    all_goals
      obtain ⟨b0, rfl, _⟩ := encode_while_inv h1
      exact hS.elim
  | _ => cases h; exact hS

theorem encodeExtend_reads {c : Expr .bool} {b next : Stmt} {I : Expr .eureal} {v : Var}
    (hn : next.Reads v → I.Free v) {k : Nat} {d : Dir} (h : (encodeExtend c b k I d next).Reads v) :
    I.Free v ∨ c.Free v ∨ b.Reads v := by
  induction k with
  | zero => exact Or.inl (hn h)
  | succ k ih =>
    simp only [encodeExtend, Stmt.block, encodeIter, Stmt.Reads] at h
    tauto

theorem extremeLit_free (d : Dir) (v : Var) : ¬ (extremeLit d).Free v := by
  cases d <;> exact id

theorem terminator_reads {k : Nat} {I : Expr .eureal} {d : Dir} {v : Var}
    (h : (if k = 1 then parkIterationTerminator I d else iterationTerminator I d).Reads v) : I.Free v := by
  have := extremeLit_free d v
  split at h
  · simp only [parkIterationTerminator, Stmt.block, wrapError, wrapSuccess, Stmt.Reads, Annot.Reads] at h
    tauto
  · simp only [iterationTerminator, Stmt.block, Stmt.Reads] at h
    tauto

theorem transform_reads {c : Expr .bool} {b : Stmt} {k : Nat} {I : Expr .eureal} {d : Dir} {v : Var}
    (h : (transformKInduction d k I c b).Reads v) : I.Free v ∨ c.Free v ∨ b.Reads v := by
  have key := @encodeExtend_reads c b (if k = 1 then parkIterationTerminator I d else iterationTerminator I d) I v
    terminator_reads (k - 1) d.toggle
  simp only [transformKInduction, Stmt.block, encodeIter, wrapError, wrapSuccess, Stmt.Reads, Annot.Reads] at h
  tauto

theorem encodeUnroll_reads {c : Expr .bool} {b : Stmt} {k : Nat} {t : Expr .eureal} {d : Dir} {v : Var}
    (h : (encodeUnroll c b k (heyConst t d)).Reads v) : t.Free v ∨ c.Free v ∨ b.Reads v := by
  have := extremeLit_free d v
  induction k with
  | zero =>
    simp only [encodeUnroll, heyConst, Stmt.block, Stmt.Reads] at h
    tauto
  | succ k ih =>
    simp only [encodeUnroll, Stmt.block, encodeIter, Stmt.Reads] at h
    tauto

theorem encodeLoops_reads {d : Dir} {S S' : Stmt} {v : Var} (h : encodeLoops d S = .ok S') (hS : S'.Reads v) :
    S.Reads v := by
  induction S generalizing S' with
  | seq a b iha ihb =>
    obtain ⟨a', b', h1, h2, rfl⟩ := encode_seq_ok h
    exact Or.imp (iha h1) (And.imp (fun hn hi => hn (encodeLoops_inits h1 hi)) (ihb h2)) hS
  | demonic a b iha ihb | angelic a b iha ihb | additive a b iha ihb =>
    obtain ⟨a', b', h1, h2, rfl⟩ := encode_seq_ok h
    exact Or.imp (iha h1) (ihb h2) hS
  | ite c a b iha ihb =>
    obtain ⟨a', b', h1, h2, rfl⟩ := encode_seq_ok h
    exact Or.imp id (Or.imp (iha h1) (ihb h2)) hS
  | «while» c s ih =>
    obtain ⟨s', h1, h2⟩ := bind_ok h
    cases h2
    exact Or.imp id (ih (S' := s') h1) hS
  | annot an s ih =>
    obtain ⟨s', h1, h2⟩ := bind_ok h
    have hs := @ih s' h1
    rcases encodeAnnot_cases h2 with ⟨n, rfl, rfl⟩ | ⟨I, c, b, rfl, rfl, rfl⟩ | ⟨k, I, c, b, rfl, hk, rfl, rfl⟩ |
      ⟨k, t, c, b, rfl, rfl, rfl⟩
    · exact Or.imp id hs hS
    · exact Or.imp id hs (transform_reads hS)
    · exact Or.imp id hs (transform_reads hS)
    · exact Or.imp id hs (encodeUnroll_reads hS)
  | _ => cases h; exact hS

theorem transform_modified {c : Expr .bool} {b : Stmt} {k : Nat} {I : Expr .eureal} {d : Dir} {v : Var}
    (h : v ∈ b.modified) : v ∈ (transformKInduction d k I c b).modified := by
  simp [transformKInduction, Stmt.block, encodeIter, wrapError, wrapSuccess, Stmt.modified, h]

theorem encodeLoops_modified {d : Dir} {S S' : Stmt} {v : Var} (h : encodeLoops d S = .ok S')
    (hi : S.OnlyInduction) (hv : v ∈ S.modified) : v ∈ S'.modified := by
  induction S generalizing S' with
  | seq a b iha ihb | demonic a b iha ihb | angelic a b iha ihb | additive a b iha ihb | ite c a b iha ihb =>
    obtain ⟨a', b', h1, h2, rfl⟩ := encode_seq_ok h
    exact List.mem_append.2 (Or.imp (iha h1 hi.1) (ihb h2 hi.2) (List.mem_append.1 hv))
  | «while» c s ih =>
    obtain ⟨s', h1, h2⟩ := bind_ok h
    cases h2
    exact ih (S' := s') h1 hi hv
  | annot an s ih =>
    obtain ⟨s', h1, h2⟩ := bind_ok h
    rcases encodeAnnot_cases h2 with ⟨n, rfl, rfl⟩ | ⟨I, c, b, rfl, rfl, rfl⟩ | ⟨k, I, c, b, rfl, hk, rfl, rfl⟩ |
      ⟨k, t, c, b, rfl, rfl, rfl⟩
    · exact (ih h1 hi hv : v ∈ s'.modified)
    · exact transform_modified (b := b) (ih h1 hi hv : v ∈ (Stmt.while c b).modified)
    · exact transform_modified (b := b) (ih h1 hi hv : v ∈ (Stmt.while c b).modified)
    · exact hi.elim
  | _ => cases h; exact hv

section
variable [Doms] [Interp]

/-- `a` is on the safe side of `b`: below for lower bounds, above for upper bounds. -/
def Dir.Le : Dir → Exp → Exp → Prop
  | .down, a, b => a ≤ b
  | .up, a, b => b ≤ a

theorem Dir.Le.refl (d : Dir) (a : Exp) : d.Le a a := by cases d <;> exact le_refl (α := Exp) a

theorem Dir.Le.trans {d : Dir} {a b c : Exp} (h : d.Le a b) (h' : d.Le b c) : d.Le a c := by
  cases d
  · exact le_trans (α := Exp) h h'
  · exact le_trans (α := Exp) h' h

theorem Dir.Le.apply {d : Dir} {f : Exp → Exp} (hf : Monotone f) {a b : Exp} (h : d.Le a b) : d.Le (f a) (f b) := by
  cases d <;> exact hf h

theorem Dir.Le.pointwise {d : Dir} {a a' b b' : Exp} {f : Env → ℝ≥0∞ → ℝ≥0∞ → ℝ≥0∞}
    (hf : ∀ σ x x' y y', x ≤ x' → y ≤ y' → f σ x y ≤ f σ x' y') (h : d.Le a b) (h' : d.Le a' b') :
    d.Le (fun σ => f σ (a σ) (a' σ)) (fun σ => f σ (b σ) (b' σ)) := by
  cases d <;> exact fun σ => hf σ _ _ _ _ (h σ) (h' σ)

theorem Ignores.loopFun {C : SemCtx} (hC : C.Regular) {c : Expr .bool} {b : Stmt} (hb : b.NoNeg) {φ : Exp}
    {B : Var → Prop} (hφ : Ignores B φ) (hc : ∀ v, B v → ¬ c.Free v) (hr : ∀ v, B v → ¬ b.Reads v) (X : Exp)
    (hX : Ignores B X) : Ignores B (loopFun C c b φ X) := by
  intro σ σ' h
  have h0 := tv_agreeOff (e := c) hc h
  have h1 := vcSem_ignores hC hb hX σ σ' (h.mono fun v hv => ⟨hr v hv, Or.inl hv⟩)
  have h2 := hφ σ σ' h
  classical
  exact if_congr h0 h1 h2

theorem loopFun_le {d : Dir} {C : SemCtx} {c : Expr .bool} {b b' : Stmt} {φ X : Exp}
    (h : d.Le (vcSem C b' X) (vcSem C b X)) : d.Le (loopFun C c b' φ X) (loopFun C c b φ X) := by
  classical
  cases d
  · intro σ
    show ite _ _ _ ≤ ite _ _ _
    split
    · exact h σ
    · exact le_rfl
  · intro σ
    show ite _ _ _ ≤ ite _ _ _
    split
    · exact h σ
    · exact le_rfl

theorem loopFun_frame {C : SemCtx} (hC : C.Regular) {c : Expr .bool} {b : Stmt} {φ : Exp}
    {M : Var → Prop} (hM : ∀ v, b.Touched v → M v) {σ : Env} (X Y : Exp)
    (h : ∀ σ', AgreeOff M σ σ' → X σ' = Y σ') (σ' : Env) (hs : AgreeOff M σ σ') :
    loopFun C c b φ X σ' = loopFun C c b φ Y σ' := by
  classical
  have h1 := vcSem_frame hC hM (φ := X) (ψ := Y) (σ := σ') fun σ'' hs' => h σ'' (hs.trans hs')
  unfold loopFun
  rw [h1]

/-- One loop encoded with k-induction. -/
theorem transform_sound {d : Dir} {C : SemCtx} (hC : C.Regular) (hl : C.loop = d.inductionSem)
    {I : Expr .eureal} {k : Nat} {c : Expr .bool} {b b' : Stmt} (_hb : b.NoNeg) (hb' : b'.NoNeg)
    (hmod : ∀ v, v ∈ b.modified → v ∈ b'.modified) (hreads : ∀ v, b'.Reads v → b.Reads v) {A : Var → Prop}
    {φ : Exp} (hφ : Ignores A φ)
    (hloc : ∀ v, b.Touched v → v ∉ b.modified → A v ∧ ¬ I.Free v ∧ ¬ c.Free v ∧ ¬ b.Reads v)
    (hle : ∀ X, Ignores (fun v => A v ∧ ¬ I.Free v ∧ ¬ c.Free v ∧ ¬ b.Reads v) X →
      d.Le (vcSem C b' X) (vcSem C b X)) :
    d.Le (vcSem C (transformKInduction d k I c b') φ) (vcSem C (.while c b) φ) := by
  classical
  set B : Var → Prop := fun v => A v ∧ ¬ I.Free v ∧ ¬ c.Free v ∧ ¬ b.Reads v with hB
  let D : Var → Prop := fun v => b.Touched v ∧ v ∉ b.modified
  have hDB : ∀ v, D v → B v := fun v hv => hloc v hv.1 hv.2
  have hIB : Ignores B I.ev := fun σ σ' h => ev_agreeOff (e := I) (fun v hv => hv.2.1) h
  have hΦB : ∀ E : Var → Prop, (∀ v, E v → B v) → ∀ X, Ignores E X → Ignores E (loopFun C c b' φ X) :=
    fun E hE X hX => Ignores.loopFun hC hb' (hφ.anti fun v hv => (hE v hv).1) (fun v hv => (hE v hv).2.2.1)
      (fun v hv hr => (hE v hv).2.2.2 (hreads v hr)) X hX
  have hmono := loopFun_mono (vcSem_mono C hC.mono hb') c φ
  have hM : ∀ v, b.Touched v → v ∈ b'.modified ∨ D v := fun v hv => by
    by_cases hm : v ∈ b.modified
    · exact Or.inl (hmod v hm)
    · exact Or.inr ⟨hv, hm⟩
  have hlej : ∀ j, d.Le (loopFun C c b' φ (extendSem d (loopFun C c b' φ) I.ev j))
      (loopFun C c b φ (extendSem d (loopFun C c b' φ) I.ev j)) := fun j =>
    loopFun_le (hle _ (extendSem_ignores (hΦB B fun _ h => h) hIB j))
  rw [vcSem_while, hl]
  cases d with
  | down =>
    intro σ
    rw [transformKInduction_sem]
    by_cases hind : Inductive .down (loopFun C c b' φ) I.ev k b'.modified σ
    · rw [if_pos hind]
      exact kInduction_down hmono (D := D) (xs := b'.modified) (loopFun_frame hC hM)
        (hΦB D hDB) (hIB.anti hDB) hlej hind
    · rw [if_neg hind]; exact zero_le
  | up =>
    intro σ
    rw [transformKInduction_sem]
    by_cases hind : Inductive .up (loopFun C c b' φ) I.ev k b'.modified σ
    · rw [if_pos hind]
      exact kInduction_up hmono (D := D) (xs := b'.modified) (loopFun_frame hC hM)
        (hΦB D hDB) (hIB.anti hDB) hlej hind
    · rw [if_neg hind]; exact le_top

/-- An unannotated loop whose body is encoded. -/
theorem while_sound {d : Dir} {C : SemCtx} (hC : C.Regular) (hl : C.loop = d.inductionSem)
    {c : Expr .bool} {b b' : Stmt} (hb' : b'.NoNeg)
    (hreads : ∀ v, b'.Reads v → b.Reads v) {A : Var → Prop} {φ : Exp} (hφ : Ignores A φ)
    (hle : ∀ X, Ignores (fun v => A v ∧ ¬ c.Free v ∧ ¬ b.Reads v) X → d.Le (vcSem C b' X) (vcSem C b X)) :
    d.Le (vcSem C (.while c b') φ) (vcSem C (.while c b) φ) := by
  set B : Var → Prop := fun v => A v ∧ ¬ c.Free v ∧ ¬ b.Reads v with hB
  have hmono := loopFun_mono (vcSem_mono C hC.mono hb') c φ
  have hF : Ignores B (fixpoint C.loop (loopFun C c b' φ)) :=
    fixpoint_ignores hmono (Ignores.loopFun hC hb' (hφ.anti fun v hv => hv.1) (fun v hv => hv.2.1)
      fun v hv hr => hv.2.2 (hreads v hr))
  have h1 := loopFun_le (c := c) (φ := φ) (hle _ hF)
  rw [vcSem_while, vcSem_while]
  rw [hl] at h1 ⊢
  cases d with
  | down => exact le_sSup (le_trans (α := Exp) (gfp_postfixed hmono) h1)
  | up => exact sInf_le (le_trans (α := Exp) h1 (lfp_prefixed hmono))

/-- Encoding all loops of a program in direction `d` with (k-)induction gives a bound on the safe side. -/
theorem encodeLoops_sound {d : Dir} {C : SemCtx} (hC : C.Regular) (hl : C.loop = d.inductionSem) (S : Stmt) :
    (∀ {S' : Stmt} {A : Var → Prop} {φ : Exp}, encodeLoops d S = .ok S' → S.NoNeg → S.OnlyInduction →
      S.LocalsOk A → Ignores A φ → d.Le (vcSem C S' φ) (vcSem C S φ)) ∧
    (∀ c b, S = .while c b → ∀ {S' : Stmt} {A : Var → Prop} {φ : Exp}, encodeLoops d b = .ok S' → b.NoNeg →
      b.OnlyInduction → b.LocalsOk A → Ignores A φ → d.Le (vcSem C S' φ) (vcSem C b φ)) := by
  induction S with
  | seq a b iha ihb =>
    refine ⟨fun h hN hI hL hφ => ?_, fun _ _ h => by cases h⟩
    obtain ⟨a', b', h1, h2, rfl⟩ := encode_seq_ok h
    have hb := ihb.1 h2 hN.2 hI.2 hL.1 hφ
    have hig := vcSem_ignores hC (encodeLoops_noNeg h2 hN.2) hφ
    have ha := iha.1 (φ := vcSem C b' _) h1 hN.1 hI.1 hL.2
      (hig.anti fun v hv => ⟨fun h => hv.1 (encodeLoops_reads h2 h), hv.2.imp id (encodeLoops_inits h2)⟩)
    exact ha.trans (hb.apply (vcSem_mono C hC.mono hN.1))
  | demonic a b iha ihb =>
    refine ⟨fun h hN hI hL hφ => ?_, fun _ _ h => by cases h⟩
    obtain ⟨a', b', h1, h2, rfl⟩ := encode_seq_ok h
    exact Dir.Le.pointwise (f := fun _ x y => min x y) (fun _ _ _ _ _ => min_le_min)
      (iha.1 h1 hN.1 hI.1 hL.1 hφ) (ihb.1 h2 hN.2 hI.2 hL.2 hφ)
  | angelic a b iha ihb =>
    refine ⟨fun h hN hI hL hφ => ?_, fun _ _ h => by cases h⟩
    obtain ⟨a', b', h1, h2, rfl⟩ := encode_seq_ok h
    exact Dir.Le.pointwise (f := fun _ x y => max x y) (fun _ _ _ _ _ => max_le_max)
      (iha.1 h1 hN.1 hI.1 hL.1 hφ) (ihb.1 h2 hN.2 hI.2 hL.2 hφ)
  | additive a b iha ihb =>
    refine ⟨fun h hN hI hL hφ => ?_, fun _ _ h => by cases h⟩
    obtain ⟨a', b', h1, h2, rfl⟩ := encode_seq_ok h
    exact Dir.Le.pointwise (f := fun _ x y => x + y) (fun _ _ _ _ _ => add_le_add)
      (iha.1 h1 hN.1 hI.1 hL.1 hφ) (ihb.1 h2 hN.2 hI.2 hL.2 hφ)
  | ite c a b iha ihb =>
    classical
    refine ⟨fun h hN hI hL hφ => ?_, fun _ _ h => by cases h⟩
    obtain ⟨a', b', h1, h2, rfl⟩ := encode_seq_ok h
    exact Dir.Le.pointwise (f := fun σ x y => if c.tv σ then x else y)
      (fun σ x x' y y' hx hy => by
        show ite _ _ _ ≤ ite _ _ _
        split
        · exact hx
        · exact hy)
      (iha.1 h1 hN.1 hI.1 hL.1 hφ) (ihb.1 h2 hN.2 hI.2 hL.2 hφ)
  | «while» c s ih =>
    refine ⟨fun h hN hI hL hφ => ?_, ?_⟩
    · obtain ⟨s', h1, h2⟩ := bind_ok h
      cases h2
      exact while_sound hC hl (encodeLoops_noNeg (S := s) h1 hN) (fun v => encodeLoops_reads h1) hφ
        fun X hX => ih.1 h1 hN hI hL hX
    · rintro _ _ h
      cases h
      exact ih.1
  | annot an s ih =>
    refine ⟨fun {S' A φ} h hN hI hL hφ => ?_, fun _ _ h => by cases h⟩
    obtain ⟨s', h1, h2⟩ := bind_ok h
    rcases encodeAnnot_cases h2 with ⟨n, rfl, rfl⟩ | ⟨I, c, b', rfl, rfl, rfl⟩ | ⟨k, I, c, b', rfl, hk, rfl, rfl⟩ |
      ⟨k, t, c, b', rfl, rfl, rfl⟩
    · have hL' : s.LocalsOk A := by
        cases s with
        | «while» c b =>
          obtain ⟨hl1, hl2⟩ := hL
          show b.LocalsOk _
          have : (fun v => A v ∧ ¬ (Annot.slicing n).Reads v ∧ ¬ c.Free v ∧ ¬ b.Reads v)
              = (fun v => A v ∧ ¬ c.Free v ∧ ¬ b.Reads v) := by
            funext v; simp [Annot.Reads]
          rw [this] at hl2
          exact hl2
        | _ => exact hL
      exact (ih.1 h1 hN hI hL' hφ : d.Le (vcSem C s' φ) (vcSem C s φ))
    · obtain ⟨b, rfl, hb⟩ := encode_while_inv h1
      exact transform_sound hC hl (b := b) hN (encodeLoops_noNeg (S := b) hb hN)
        (fun v => encodeLoops_modified (S := b) hb hI) (fun v => encodeLoops_reads hb) hφ (fun v h h' => hL.1 v ⟨h, h'⟩)
        fun X hX => ih.2 c b rfl hb hN hI hL.2 hX
    · obtain ⟨b, rfl, hb⟩ := encode_while_inv h1
      exact transform_sound hC hl (b := b) hN (encodeLoops_noNeg (S := b) hb hN)
        (fun v => encodeLoops_modified (S := b) hb hI) (fun v => encodeLoops_reads hb) hφ (fun v h h' => hL.1 v ⟨h, h'⟩)
        fun X hX => ih.2 c b rfl hb hN hI hL.2 hX
    · exact hI.elim
  | _ =>
    refine ⟨fun h _ _ _ _ => ?_, fun _ _ h => by cases h⟩
    cases h
    exact Dir.Le.refl _ _

end

/-! ## Transport to generated verification conditions -/

theorem encodeExtend_noValidate {c : Expr .bool} {b next : Stmt} (hb : b.NoValidate) (hn : next.NoValidate) (k : Nat)
    (I : Expr .eureal) (d : Dir) : (encodeExtend c b k I d next).NoValidate := by
  induction k with
  | zero => exact hn
  | succ k ih => exact ⟨trivial, ⟨⟨hb, ih⟩, trivial⟩, trivial⟩

section
variable [Doms] [Interp]

theorem encodeExtend_validateOk {c : Expr .bool} {b next : Stmt} (hb : ∀ p, ValidateOk b p)
    (hn : ∀ p, ValidateOk next p) (k : Nat) (I : Expr .eureal) (d : Dir) (p : Expr .eureal) :
    ValidateOk (encodeExtend c b k I d next) p := by
  induction k with
  | zero => exact hn p
  | succ k ih =>
    refine ⟨⟨trivial, ?_⟩, fun _ _ => trivial⟩
    intro p' hp'
    cases hp'
    exact ⟨⟨ih, fun _ _ => hb _⟩, trivial⟩

theorem terminator_validateOk (k : Nat) (I : Expr .eureal) (d : Dir) (p : Expr .eureal) :
    ValidateOk (if k = 1 then parkIterationTerminator I d else iterationTerminator I d) p := by
  apply validateOk_of_noValidate
  split <;> exact ⟨trivial, trivial, trivial⟩

theorem transform_validateOk {c : Expr .bool} {b : Stmt} (hb : ∀ p, ValidateOk b p) (k : Nat) (I : Expr .eureal)
    (d : Dir) (p : Expr .eureal) : ValidateOk (transformKInduction d k I c b) p := by
  refine ⟨⟨⟨⟨⟨trivial, ?_⟩, fun _ _ => trivial⟩, ?_⟩, fun _ _ => trivial⟩, fun _ _ => trivial⟩
  · intro p' hp'
    cases hp'
    exact ⟨⟨encodeExtend_validateOk hb (terminator_validateOk k I d) _ _ _ _, fun _ _ => hb _⟩, trivial⟩
  · intro p' hp'
    obtain ⟨q, _, hq⟩ := bind_ok hp'
    cases d
    · cases hq; exact Or.inl ⟨_, _, rfl⟩
    · cases hq; exact Or.inl ⟨_, _, rfl⟩

theorem encodeUnroll_validateOk {c : Expr .bool} {b next : Stmt} (hb : ∀ p, ValidateOk b p)
    (hn : ∀ p, ValidateOk next p) (k : Nat) (p : Expr .eureal) : ValidateOk (encodeUnroll c b k next) p := by
  induction k with
  | zero => exact hn p
  | succ k ih => exact ⟨trivial, fun _ hp' => by cases hp'; exact ⟨⟨ih, fun _ _ => hb _⟩, trivial⟩⟩

/-- The posts of all `validate`s introduced by the encoding are implications. -/
theorem encodeLoops_validateOk' {d : Dir} {S S' : Stmt} (h : encodeLoops d S = .ok S') (hS : S.NoValidate) :
    (∀ p, ValidateOk S' p) ∧ ∀ c b, S' = .while c b → ∀ p, ValidateOk b p := by
  induction S generalizing S' with
  | seq a b iha ihb =>
    obtain ⟨a', b', h1, h2, rfl⟩ := encode_seq_ok h
    exact ⟨fun p => ⟨(ihb h2 hS.2).1 _, fun _ _ => (iha h1 hS.1).1 _⟩, fun _ _ h => by cases h⟩
  | demonic a b iha ihb | angelic a b iha ihb | additive a b iha ihb | ite c a b iha ihb =>
    obtain ⟨a', b', h1, h2, rfl⟩ := encode_seq_ok h
    exact ⟨fun p => ⟨(iha h1 hS.1).1 _, (ihb h2 hS.2).1 _⟩, fun _ _ h => by cases h⟩
  | «while» c s ih =>
    obtain ⟨s', h1, h2⟩ := bind_ok h
    cases h2
    exact ⟨fun _ => trivial, fun _ _ h => by cases h; exact (ih h1 hS).1⟩
  | annot an s ih =>
    obtain ⟨s', h1, h2⟩ := bind_ok h
    rcases encodeAnnot_cases h2 with ⟨n, rfl, rfl⟩ | ⟨I, c, b', rfl, rfl, rfl⟩ | ⟨k, I, c, b', rfl, hk, rfl, rfl⟩ |
      ⟨k, t, c, b', rfl, rfl, rfl⟩
    · exact ⟨(ih h1 hS).1, fun _ _ h => by cases h⟩
    · exact ⟨transform_validateOk ((ih h1 hS).2 c b' rfl) _ _ _, fun _ _ h => by cases h⟩
    · exact ⟨transform_validateOk ((ih h1 hS).2 c b' rfl) _ _ _, fun _ _ h => by cases h⟩
    · refine ⟨encodeUnroll_validateOk ((ih h1 hS).2 c b' rfl)
        (fun p => validateOk_of_noValidate (S := heyConst t d) ⟨trivial, trivial, trivial⟩ p) _, fun _ _ h => ?_⟩
      cases k <;> cases h
  | validate d => exact hS.elim
  | _ => cases h; exact ⟨fun p => validateOk_of_noValidate (by trivial) p, fun _ _ h => by cases h⟩

theorem encodeLoops_validateOk {d : Dir} {S S' : Stmt} (h : encodeLoops d S = .ok S') (hS : S.NoValidate)
    (p : Expr .eureal) : ValidateOk S' p := (encodeLoops_validateOk' h hS).1 p

end

theorem encodeExtend_goodDists {c : Expr .bool} {b next : Stmt} (hb : b.GoodDists) (hn : next.GoodDists) (k : Nat)
    (I : Expr .eureal) (d : Dir) : (encodeExtend c b k I d next).GoodDists := by
  induction k with
  | zero => exact hn
  | succ k ih => exact ⟨trivial, ⟨⟨hb, ih⟩, trivial⟩, trivial⟩

theorem transform_goodDists {c : Expr .bool} {b : Stmt} (hb : b.GoodDists) (k : Nat) (I : Expr .eureal) (d : Dir) :
    (transformKInduction d k I c b).GoodDists := by
  refine ⟨trivial, trivial, trivial, trivial, ⟨⟨hb, encodeExtend_goodDists hb ?_ _ _ _⟩, trivial⟩, trivial⟩
  split <;> exact ⟨trivial, trivial, trivial⟩

theorem encodeUnroll_goodDists {c : Expr .bool} {b next : Stmt} (hb : b.GoodDists) (hn : next.GoodDists) (k : Nat) :
    (encodeUnroll c b k next).GoodDists := by
  induction k with
  | zero => exact hn
  | succ k ih => exact ⟨⟨⟨hb, ih⟩, trivial⟩, trivial⟩

theorem encodeLoops_goodDists {d : Dir} {S S' : Stmt} (h : encodeLoops d S = .ok S') (hS : S.GoodDists) :
    S'.GoodDists := by
  induction S generalizing S' with
  | seq a b iha ihb | demonic a b iha ihb | angelic a b iha ihb | additive a b iha ihb | ite c a b iha ihb =>
    obtain ⟨a', b', h1, h2, rfl⟩ := encode_seq_ok h
    exact ⟨iha h1 hS.1, ihb h2 hS.2⟩
  | «while» c s ih =>
    obtain ⟨s', h1, h2⟩ := bind_ok h
    cases h2
    exact ih (S' := s') h1 hS
  | annot an s ih =>
    obtain ⟨s', h1, h2⟩ := bind_ok h
    have hs := ih h1 hS
    rcases encodeAnnot_cases h2 with ⟨n, rfl, rfl⟩ | ⟨I, c, b, rfl, rfl, rfl⟩ | ⟨k, I, c, b, rfl, hk, rfl, rfl⟩ |
      ⟨k, t, c, b, rfl, rfl, rfl⟩
    · exact hs
    · exact transform_goodDists (b := b) hs _ _ _
    · exact transform_goodDists (b := b) hs _ _ _
    · exact encodeUnroll_goodDists (b := b) (next := heyConst t d) hs ⟨trivial, trivial, trivial⟩ k
  | _ => cases h; exact hS

end Caesar
