import Verif.Procs.RecSound

/-!
# Loop encodings and calls (helper lemmas)
-/

namespace Caesar

theorem encodeExtend_readsSome {c : Expr .bool} {b next : Stmt} {I : Expr .eureal} {v : Var}
    (hn : next.ReadsSome v → I.Free v) {k : Nat} {d : Dir} (h : (encodeExtend c b k I d next).ReadsSome v) :
    I.Free v ∨ c.Free v ∨ b.ReadsSome v := by
  induction k with
  | zero => exact Or.inl (hn h)
  | succ k ih =>
    simp only [encodeExtend, Stmt.block, encodeIter, Stmt.ReadsSome, Stmt.Reads] at h
    tauto

theorem terminator_readsSome {k : Nat} {I : Expr .eureal} {d : Dir} {v : Var}
    (h : (if k = 1 then parkIterationTerminator I d else iterationTerminator I d).ReadsSome v) : I.Free v := by
  have := extremeLit_free d v
  split at h
  · simp only [parkIterationTerminator, Stmt.block, wrapError, wrapSuccess, Stmt.ReadsSome, Stmt.Reads, Annot.Reads] at h
    tauto
  · simp only [iterationTerminator, Stmt.block, Stmt.ReadsSome, Stmt.Reads] at h
    tauto

theorem transform_readsSome {c : Expr .bool} {b : Stmt} {k : Nat} {I : Expr .eureal} {d : Dir} {v : Var}
    (h : (transformKInduction d k I c b).ReadsSome v) : I.Free v ∨ c.Free v ∨ b.ReadsSome v := by
  have key := @encodeExtend_readsSome c b (if k = 1 then parkIterationTerminator I d else iterationTerminator I d) I v
    terminator_readsSome (k - 1) d.toggle
  simp only [transformKInduction, Stmt.block, encodeIter, wrapError, wrapSuccess, Stmt.ReadsSome, Stmt.Reads, Annot.Reads] at h
  tauto

theorem encodeUnroll_readsSome {c : Expr .bool} {b : Stmt} {k : Nat} {t : Expr .eureal} {d : Dir} {v : Var}
    (h : (encodeUnroll c b k (heyConst t d)).ReadsSome v) : t.Free v ∨ c.Free v ∨ b.ReadsSome v := by
  have := extremeLit_free d v
  induction k with
  | zero =>
    simp only [encodeUnroll, heyConst, Stmt.block, Stmt.ReadsSome, Stmt.Reads] at h
    tauto
  | succ k ih =>
    simp only [encodeUnroll, Stmt.block, encodeIter, Stmt.ReadsSome, Stmt.Reads] at h
    tauto

/-- The encoding reads no further variables. -/
theorem encodeLoops_readsSome {d : Dir} {S S' : Stmt} {v : Var} (h : encodeLoops d S = .ok S') (hS : S'.ReadsSome v) :
    S.ReadsSome v := by
  induction S generalizing S' with
  | seq a b iha ihb | demonic a b iha ihb | angelic a b iha ihb | additive a b iha ihb =>
    obtain ⟨a', b', h1, h2, rfl⟩ := encode_seq_ok h
    exact Or.imp (iha h1) (ihb h2) hS
  | ite c a b iha ihb =>
    obtain ⟨a', b', h1, h2, rfl⟩ := encode_seq_ok h
    exact Or.imp id (Or.imp (iha h1) (ihb h2)) hS
  | «while» c s ih =>
    obtain ⟨s', h1, h2⟩ := bind_ok h
    cases h2
    exact Or.imp id (ih (S' := s') h1) hS
  | annot an s ih =>
    obtain ⟨s', h1, h2⟩ := bind_ok h
    have hs := @ih s' h1
    rcases encodeAnnot_cases h2 with ⟨n, rfl, rfl⟩ | ⟨I, c, b, rfl, rfl, rfl⟩ | ⟨k, I, c, b, rfl, hk, rfl, rfl⟩ |
      ⟨k, t, c, b, rfl, rfl, rfl⟩
    · exact Or.imp id hs hS
    · exact Or.imp id hs (transform_readsSome hS)
    · exact Or.imp id hs (transform_readsSome hS)
    · exact Or.imp id hs (encodeUnroll_readsSome hS)
  | _ => cases h; exact hS

variable {lhs : List Var} {f : Ident} {args : List ((t : Ty) × Expr t)}

theorem encodeExtend_calls {c : Expr .bool} {b next : Stmt} {I : Expr .eureal}
    (hn : ¬ next.Calls lhs f args) {k : Nat} {d : Dir} (h : (encodeExtend c b k I d next).Calls lhs f args) :
    b.Calls lhs f args := by
  induction k with
  | zero => exact absurd h hn
  | succ k ih =>
    simp only [encodeExtend, Stmt.block, encodeIter, Stmt.Calls] at h
    tauto

theorem terminator_calls {k : Nat} {I : Expr .eureal} {d : Dir} :
    ¬ (if k = 1 then parkIterationTerminator I d else iterationTerminator I d).Calls lhs f args := by
  intro h
  split at h
  · simp only [parkIterationTerminator, Stmt.block, wrapError, wrapSuccess, Stmt.Calls] at h
    tauto
  · simp only [iterationTerminator, Stmt.block, Stmt.Calls] at h
    tauto

theorem transform_calls {c : Expr .bool} {b : Stmt} {k : Nat} {I : Expr .eureal} {d : Dir}
    (h : (transformKInduction d k I c b).Calls lhs f args) : b.Calls lhs f args := by
  have key := @encodeExtend_calls lhs f args c b (if k = 1 then parkIterationTerminator I d else iterationTerminator I d) I
    terminator_calls (k - 1) d.toggle
  simp only [transformKInduction, Stmt.block, encodeIter, wrapError, wrapSuccess, Stmt.Calls] at h
  tauto

theorem encodeUnroll_calls {c : Expr .bool} {b : Stmt} {k : Nat} {t : Expr .eureal} {d : Dir}
    (h : (encodeUnroll c b k (heyConst t d)).Calls lhs f args) : b.Calls lhs f args := by
  induction k with
  | zero =>
    simp only [encodeUnroll, heyConst, Stmt.block, Stmt.Calls] at h
    tauto
  | succ k ih =>
    simp only [encodeUnroll, Stmt.block, encodeIter, Stmt.Calls] at h
    tauto

/-- The encoding contains no further calls. -/
theorem encodeLoops_calls {d : Dir} {S S' : Stmt} (h : encodeLoops d S = .ok S') (hS : S'.Calls lhs f args) :
    S.Calls lhs f args := by
  induction S generalizing S' with
  | seq a b iha ihb | demonic a b iha ihb | angelic a b iha ihb | additive a b iha ihb | ite c a b iha ihb =>
    obtain ⟨a', b', h1, h2, rfl⟩ := encode_seq_ok h
    exact Or.imp (iha h1) (ihb h2) hS
  | «while» c s ih =>
    obtain ⟨s', h1, h2⟩ := bind_ok h
    cases h2
    exact ih (S' := s') h1 hS
  | annot an s ih =>
    obtain ⟨s', h1, h2⟩ := bind_ok h
    have hs := @ih s' h1
    rcases encodeAnnot_cases h2 with ⟨n, rfl, rfl⟩ | ⟨I, c, b, rfl, rfl, rfl⟩ | ⟨k, I, c, b, rfl, hk, rfl, rfl⟩ |
      ⟨k, t, c, b, rfl, rfl, rfl⟩
    · exact hs hS
    · exact hs (transform_calls (b := b) hS)
    · exact hs (transform_calls (b := b) hS)
    · exact hs (encodeUnroll_calls (b := b) hS)
  | _ => cases h; exact hS

end Caesar
