import Verif.Mc.FnSpec
import Verif.Mc.ProcSound

/-!
# The functions of exported models
-/

open scoped ENNReal NNReal

namespace Caesar.Mc
set_option linter.unusedSectionVars false

variable [Fns]

/-! ## Which functions are exported -/

omit [Fns] in
theorem mem_ofFn_flatten {α : Type} {n : ℕ} {g : Fin n → List α} {a : α} : a ∈ (List.ofFn g).flatten ↔ ∃ i, a ∈ g i := by
  rw [List.mem_flatten]
  constructor
  · rintro ⟨l, hl, ha⟩
    obtain ⟨i, rfl⟩ := List.mem_ofFn.1 hl
    exact ⟨i, ha⟩
  · rintro ⟨i, ha⟩
    exact ⟨_, List.mem_ofFn.2 ⟨i, rfl⟩, ha⟩

theorem sub_calls {t : Ty} {a b j : JExpr} (h : translateSub t a b = some j) : ∀ n, n ∈ j.calls ↔ n ∈ a.calls ∨ n ∈ b.calls := by
  intro n
  cases t <;> cases h <;> simp only [JExpr.calls, List.mem_append, List.not_mem_nil, or_false, or_self]

theorem bin_calls {t : Ty} (op : BinOp t) {a b j : JExpr} (h : translateBin op a b = some j) :
    ∀ n, n ∈ j.calls ↔ n ∈ a.calls ∨ n ∈ b.calls := by
  intro n
  cases op with
  | sub => exact sub_calls h n
  | impl _ | coimpl _ | compare _ | cocompare _ => cases h
  | _ => cases h; exact List.mem_append

theorem lit_calls {t : Ty} (l : Lit t) {j : JExpr} (h : translateLit l = some j) : j.calls = [] := by
  have hf : ∀ {q : ℚ≥0}, fracExpr q = some j → j.calls = [] := by
    intro q h
    unfold fracExpr at h
    cases h1 : u64 q.num with
    | none => rw [h1] at h; cases h
    | some a =>
      cases h2 : u64 q.den with
      | none => rw [h1, h2] at h; cases h
      | some b =>
        rw [h1, h2] at h
        cases h
        rw [u64_some h1, u64_some h2]
        rfl
  cases l with
  | bool b => cases h; rfl
  | uint n => rw [u64_some h]; rfl
  | ufrac q => exact hf h
  | rfrac q => exact hf h
  | efrac q => exact hf h
  | infty => cases h

/-- The functions called in the translation are those called in the expression; they have a body. -/
theorem translate_calls {t : Ty} (e : Expr t) {j : JExpr} (h : translate e = some j) :
    (∀ n, n ∈ j.calls ↔ ∃ x ∈ exprCalls e, x.name = n) ∧ ∀ x ∈ exprCalls e, hasBody x = true := by
  have two : ∀ {A B : List Ident} {a b : List String}, (∀ n, n ∈ a ↔ ∃ x ∈ A, x.name = n) → (∀ n, n ∈ b ↔ ∃ x ∈ B, x.name = n) →
      ∀ n, (n ∈ a ∨ n ∈ b) ↔ ∃ x ∈ A ++ B, x.name = n := by
    intro A B a b h1 h2 n
    rw [h1, h2]
    simp only [List.mem_append, or_and_right, exists_or]
  induction e generalizing j with
  | var x => cases h; exact ⟨fun n => ⟨fun h => (nomatch h), fun h => by obtain ⟨x, hx, _⟩ := h; cases hx⟩, fun x hx => (nomatch hx)⟩
  | lit l =>
    rw [lit_calls l h]
    exact ⟨fun n => ⟨fun h => (nomatch h), fun h => by obtain ⟨x, hx, _⟩ := h; cases hx⟩, fun x hx => (nomatch hx)⟩
  | call f args ih =>
    rw [translate] at h
    split at h
    next hb =>
      obtain ⟨gs, h1, rfl⟩ := Option.map_eq_some_iff.1 h
      have ih' := fun i => ih i (collectArgs_some h1 i)
      refine ⟨fun n => ?_, fun x hx => ?_⟩
      · rw [JExpr.calls, exprCalls, List.mem_cons, mem_ofFn_flatten]
        constructor
        · rintro (rfl | ⟨i, hi⟩)
          · exact ⟨_, List.mem_cons_self, rfl⟩
          · obtain ⟨x, hx, rfl⟩ := ((ih' i).1 n).1 hi
            exact ⟨x, List.mem_cons_of_mem _ (mem_ofFn_flatten.2 ⟨i, hx⟩), rfl⟩
        · rintro ⟨x, hx, rfl⟩
          rcases List.mem_cons.1 hx with rfl | hx
          · exact .inl rfl
          · obtain ⟨i, hi⟩ := mem_ofFn_flatten.1 hx
            exact .inr ⟨i, ((ih' i).1 _).2 ⟨x, hi, rfl⟩⟩
      · rw [exprCalls] at hx
        rcases List.mem_cons.1 hx with rfl | hx
        · exact hb
        · obtain ⟨i, hi⟩ := mem_ofFn_flatten.1 hx
          exact (ih' i).2 x hi
    next => cases h
  | ite c a b ihc iha ihb =>
    rw [translate] at h
    cases h1 : translate c with
    | none => rw [h1] at h; cases h
    | some c' =>
      cases h2 : translate a with
      | none => rw [h1, h2] at h; cases h
      | some a' =>
        cases h3 : translate b with
        | none => rw [h1, h2, h3] at h; cases h
        | some b' =>
          rw [h1, h2, h3] at h
          cases h
          refine ⟨fun n => ?_, fun x hx => ?_⟩
          · rw [JExpr.calls, List.mem_append]
            exact two (a := c'.calls ++ a'.calls) (fun n => by rw [List.mem_append]; exact two (ihc h1).1 (iha h2).1 n) (ihb h3).1 n
          · rcases List.mem_append.1 hx with hx | hx
            · exact (List.mem_append.1 hx).elim ((ihc h1).2 x) ((iha h2).2 x)
            · exact (ihb h3).2 x hx
  | bin op a b iha ihb =>
    rw [translate] at h
    cases h2 : translate a with
    | none => rw [h2] at h; cases h
    | some a' =>
      cases h3 : translate b with
      | none => rw [h2, h3] at h; cases h
      | some b' =>
        rw [h2, h3] at h
        exact ⟨fun n => (bin_calls op h n).trans (two (iha h2).1 (ihb h3).1 n), fun x hx =>
          (List.mem_append.1 hx).elim ((iha h2).2 x) ((ihb h3).2 x)⟩
  | rel op a b iha ihb =>
    rw [translate] at h
    cases h2 : translate a with
    | none => rw [h2] at h; cases h
    | some a' =>
      cases h3 : translate b with
      | none => rw [h2, h3] at h; cases h
      | some b' =>
        rw [h2, h3] at h
        cases h
        exact ⟨fun n => List.mem_append.trans (two (iha h2).1 (ihb h3).1 n), fun x hx =>
          (List.mem_append.1 hx).elim ((iha h2).2 x) ((ihb h3).2 x)⟩
  | un op a ih =>
    cases op with
    | not ht =>
      cases h2 : translate a with
      | none =>
        rw [translate, h2] at h
        split at h <;> cases h
      | some a' =>
        rw [translate, h2] at h
        split at h
        next => cases h; exact ih (j := a') h2
        next => cases h
    | non => cases h
    | parens => exact ih h
  | embed a => cases h
  | iverson a ih =>
    rw [translate] at h
    cases h2 : translate a with
    | none => rw [h2] at h; cases h
    | some a' =>
      rw [h2] at h
      cases h
      refine ⟨fun n => ?_, (ih h2).2⟩
      simp only [JExpr.calls, List.append_nil]
      exact (ih h2).1 n
  | cast c a ih => exact ih h
  | quant => cases h
  | subst => cases h

theorem translateFn_some {d : FnDecl} {f : JFun} (h : translateFn d = some f) : isJaniTy d.out = true ∧
    (∀ i, isJaniTy (d.func.args.get i) = true) ∧ ∃ b, d.body = some b ∧ translate b = some f.body ∧ f.name = d.func.name.name ∧
    f.ty = d.out ∧ f.params = List.ofFn fun i => ((d.ins i).name, d.func.args.get i) := by
  unfold translateFn at h
  split at h
  next hc =>
    rw [Bool.and_eq_true] at hc
    refine ⟨hc.1, fun i => ?_, ?_⟩
    · exact List.all_eq_true.1 hc.2 _ (List.mem_ofFn.2 ⟨i, rfl⟩)
    · cases hb : d.body with
      | none => rw [hb] at h; cases h
      | some b =>
        rw [hb] at h
        cases hj : translate b with
        | none => dsimp only [bind, Option.bind] at h; rw [hj] at h; cases h
        | some j =>
          dsimp only [bind, Option.bind] at h
          rw [hj] at h
          cases h
          exact ⟨b, rfl, hj, rfl, rfl, rfl⟩
  next => cases h

theorem translateFn_ne_none {d : FnDecl} (h1 : isJaniTy d.out = true) (h2 : ∀ i, isJaniTy (d.func.args.get i) = true) {b : Expr d.out}
    (hb : d.body = some b) (hj : translate b ≠ none) : translateFn d ≠ none := by
  obtain ⟨j, hj⟩ := Option.ne_none_iff_exists'.1 hj
  unfold translateFn
  rw [if_pos, hb]
  · dsimp only [bind, Option.bind]
    rw [hj]
    nofun
  · rw [Bool.and_eq_true]
    refine ⟨h1, List.all_eq_true.2 fun x hx => ?_⟩
    obtain ⟨i, rfl⟩ := List.mem_ofFn.1 hx
    exact h2 i

theorem findName_name {n : String} {d : FnDecl} (h : findName n = some d) : d.func.name.name = n := by
  have := List.find?_some h
  exact of_decide_eq_true this

theorem exportable_iff (n : String) : Exportable n ↔ ∃ d f, findName n = some d ∧ translateFn d = some f := by
  constructor
  · rintro ⟨d, h1, h2, h3, b, hb, hj⟩
    obtain ⟨f, hf⟩ := Option.ne_none_iff_exists'.1 (translateFn_ne_none h2 h3 hb hj)
    exact ⟨d, f, h1, hf⟩
  · rintro ⟨d, f, h1, h2⟩
    obtain ⟨k1, k2, b, k3, k4, _⟩ := translateFn_some h2
    exact ⟨d, h1, k1, k2, b, k3, by rw [k4]; nofun⟩

theorem Needed.trans {m m' : String → Prop} (h : ∀ n, m' n → Needed m n) {n : String} (hn : Needed m' n) : Needed m n := by
  induction hn with
  | mentioned hn => exact h _ hn
  | called _ h1 h2 h3 ih => exact .called ih h1 h2 h3

theorem needed_calls {m : String → Prop} {n : String} {d : FnDecl} {f : JFun} (hn : Needed m n) (h1 : findName n = some d)
    (h2 : translateFn d = some f) : ∀ k ∈ f.body.calls, Needed m k := by
  intro k hk
  obtain ⟨_, _, b, k3, k4, _⟩ := translateFn_some h2
  obtain ⟨x, hx, rfl⟩ := ((translate_calls b k4).1 k).1 hk
  exact .called hn h1 k3 hx

theorem fnsLoop_eq (fuel : ℕ) (m done : List String) : fnsLoop fuel m done =
    match m.find? fun n => n ∉ done with
    | none => some []
    | some n => match fuel with
      | 0 => none
      | fuel + 1 => do
        let d ← findName n
        let f ← translateFn d
        return f :: (← fnsLoop fuel (m ++ f.body.calls) (n :: done)) := by
  rw [fnsLoop.eq_def]
  cases fuel <;> rfl

/-- One iteration. -/
theorem fnsLoop_some {fuel : ℕ} {m done : List String} {fs : List JFun} (h : fnsLoop fuel m done = some fs) :
    (fs = [] ∧ ∀ n ∈ m, n ∈ done) ∨ ∃ fuel' n d f fs', fuel = fuel' + 1 ∧ n ∈ m ∧ n ∉ done ∧ findName n = some d ∧
      translateFn d = some f ∧ fnsLoop fuel' (m ++ f.body.calls) (n :: done) = some fs' ∧ fs = f :: fs' := by
  rw [fnsLoop_eq] at h
  cases hf : m.find? fun n => n ∉ done with
  | none =>
    rw [hf] at h
    cases h
    refine .inl ⟨rfl, fun n hn => ?_⟩
    have := List.find?_eq_none.1 hf n hn
    by_contra hh
    exact this (decide_eq_true hh)
  | some n =>
    rw [hf] at h
    cases fuel with
    | zero => cases h
    | succ fuel =>
      dsimp only [bind, Option.bind] at h
      split at h
      next => cases h
      next d h1 =>
        dsimp only at h
        split at h
        next => cases h
        next f h2 =>
          dsimp only at h
          split at h
          next => cases h
          next fs' h3 =>
            cases h
            have := List.find?_some hf
            exact .inr ⟨fuel, n, d, f, fs', rfl, List.mem_of_find?_eq_some hf, of_decide_eq_true this, h1, h2, h3, rfl⟩

theorem fnsLoop_inv {fuel : ℕ} {m done : List String} {fs : List JFun} (h : fnsLoop fuel m done = some fs) :
    (∀ f ∈ fs, f.name ∉ done ∧ Needed (· ∈ m) f.name ∧ ∃ d, findName f.name = some d ∧ translateFn d = some f) ∧
    (fs.map JFun.name).Nodup ∧ (∀ n ∈ m, n ∈ done ∨ n ∈ fs.map JFun.name) ∧
    ∀ f ∈ fs, ∀ n ∈ f.body.calls, n ∈ done ∨ n ∈ fs.map JFun.name := by
  induction fuel generalizing m done fs with
  | zero =>
    rcases fnsLoop_some h with ⟨rfl, hm⟩ | ⟨fuel', n, d, f, fs', h0, _⟩
    · exact ⟨fun f hf => (nomatch hf), List.nodup_nil, fun n hn => .inl (hm n hn), fun f hf => (nomatch hf)⟩
    · cases h0
  | succ fuel ih =>
    rcases fnsLoop_some h with ⟨rfl, hm⟩ | ⟨fuel', n, d, f, fs', h0, hn, hnd, h1, h2, h3, rfl⟩
    · exact ⟨fun f hf => (nomatch hf), List.nodup_nil, fun n hn => .inl (hm n hn), fun f hf => (nomatch hf)⟩
    cases h0
    obtain ⟨i1, i2, i3, i4⟩ := ih h3
    obtain ⟨_, _, _, _, _, hname, _⟩ := translateFn_some h2
    have hname : f.name = n := hname.trans (findName_name h1)
    have up : ∀ k, k ∈ n :: done ∨ k ∈ fs'.map JFun.name → k ∈ done ∨ k ∈ (f :: fs').map JFun.name := by
      rintro k (hk | hk)
      · rcases List.mem_cons.1 hk with rfl | hk
        · rw [List.map_cons, hname]; exact .inr List.mem_cons_self
        · exact .inl hk
      · exact .inr (List.mem_cons_of_mem _ hk)
    refine ⟨?_, ?_, ?_, ?_⟩
    · intro g hg
      rcases List.mem_cons.1 hg with rfl | hg
      · rw [hname]; exact ⟨hnd, .mentioned hn, d, h1, h2⟩
      · obtain ⟨j1, j2, j3⟩ := i1 g hg
        refine ⟨fun hh => j1 (List.mem_cons_of_mem _ hh), Needed.trans ?_ j2, j3⟩
        intro k hk
        rcases List.mem_append.1 hk with hk | hk
        · exact .mentioned hk
        · exact needed_calls (.mentioned hn) h1 h2 k hk
    · rw [List.map_cons, List.nodup_cons]
      refine ⟨fun hh => ?_, i2⟩
      obtain ⟨g, hg, he⟩ := List.mem_map.1 hh
      refine (i1 g hg).1 ?_
      rw [he, hname]
      exact List.mem_cons_self
    · exact fun k hk => up k (i3 k (List.mem_append_left _ hk))
    · intro g hg k hk
      rcases List.mem_cons.1 hg with rfl | hg
      · exact up k (i3 k (List.mem_append_right _ hk))
      · exact up k (i4 g hg k hk)

/-- The functions that are exported. -/
theorem translateFns_some {m : List String} {fs : List JFun} (h : translateFns m = some fs) :
    (∀ n, n ∈ fs.map JFun.name ↔ Needed (· ∈ m) n) ∧ (fs.map JFun.name).Nodup ∧
    ∀ f ∈ fs, ∃ d, findName f.name = some d ∧ translateFn d = some f := by
  obtain ⟨i1, i2, i3, i4⟩ := fnsLoop_inv h
  refine ⟨fun n => ⟨fun hn => ?_, fun hn => ?_⟩, i2, fun f hf => (i1 f hf).2.2⟩
  · obtain ⟨f, hf, rfl⟩ := List.mem_map.1 hn
    exact (i1 f hf).2.1
  · induction hn with
    | mentioned hn => exact (i3 _ hn).resolve_left (fun h => nomatch h)
    | @called n d b x _ h1 h2 h3 ih =>
      obtain ⟨f, hf, rfl⟩ := List.mem_map.1 ih
      obtain ⟨d', j1, j2⟩ := (i1 f hf).2.2
      obtain rfl : d = d' := Option.some.inj (h1.symm.trans j1)
      obtain ⟨_, _, b', k1, k2, _⟩ := translateFn_some j2
      obtain rfl : b = b' := Option.some.inj (h2.symm.trans k1)
      exact (i4 f hf _ (((translate_calls b k2).1 _).2 ⟨x, h3, rfl⟩)).resolve_left (fun h => nomatch h)

theorem fnsLoop_none {fuel : ℕ} {m done : List String} (h : fnsLoop fuel m done = none) (hd : done.Nodup)
    (hs : ∀ n ∈ done, n ∈ Fns.decls.map fun d => d.func.name.name) (hl : Fns.decls.length ≤ fuel + done.length) :
    ∃ n, Needed (· ∈ m) n ∧ ¬ Exportable n := by
  induction fuel generalizing m done with
  | zero =>
    rw [fnsLoop_eq] at h
    split at h
    next => cases h
    next n hf =>
      have hnd : n ∉ done := of_decide_eq_true (List.find?_some hf :)
      refine ⟨n, .mentioned (List.mem_of_find?_eq_some hf), fun ⟨d, h1, _⟩ => ?_⟩
      have hsub : (n :: done) ⊆ Fns.decls.map fun d => d.func.name.name := by
        intro k hk
        rcases List.mem_cons.1 hk with rfl | hk
        · exact List.mem_map.2 ⟨d, List.mem_of_find?_eq_some h1, findName_name h1⟩
        · exact hs k hk
      have := (List.nodup_cons.2 ⟨hnd, hd⟩).subperm hsub |>.length_le
      rw [List.length_map, List.length_cons] at this
      omega
  | succ fuel ih =>
    rw [fnsLoop_eq] at h
    split at h
    next => cases h
    next n hf =>
      have hnd : n ∉ done := of_decide_eq_true (List.find?_some hf :)
      have hm := List.mem_of_find?_eq_some hf
      by_cases he : Exportable n
      · obtain ⟨d, f, h1, h2⟩ := (exportable_iff n).1 he
        dsimp only [bind, Option.bind] at h
        rw [h1] at h
        dsimp only at h
        rw [h2] at h
        dsimp only at h
        cases h3 : fnsLoop fuel (m ++ f.body.calls) (n :: done) with
        | some fs => rw [h3] at h; cases h
        | none =>
          obtain ⟨k, hk, hke⟩ := ih h3 (List.nodup_cons.2 ⟨hnd, hd⟩) (by
            intro k hk
            rcases List.mem_cons.1 hk with rfl | hk
            · exact List.mem_map.2 ⟨d, List.mem_of_find?_eq_some h1, findName_name h1⟩
            · exact hs k hk) (by rw [List.length_cons]; omega)
          refine ⟨k, Needed.trans ?_ hk, hke⟩
          intro k hk
          rcases List.mem_append.1 hk with hk | hk
          · exact .mentioned hk
          · exact needed_calls (.mentioned hm) h1 h2 k hk
      · exact ⟨n, .mentioned hm, he⟩

/-- The export of the functions fails exactly if some function that is needed cannot be exported. -/
theorem translateFns_none (m : List String) : translateFns m = none ↔ ∃ n, Needed (· ∈ m) n ∧ ¬ Exportable n := by
  constructor
  · exact fun h => fnsLoop_none h List.nodup_nil (fun n hn => nomatch hn) (by simp)
  · rintro ⟨n, hn, he⟩
    by_contra hh
    obtain ⟨fs, hfs⟩ := Option.ne_none_iff_exists'.1 hh
    obtain ⟨h1, _, h3⟩ := translateFns_some hfs
    obtain ⟨f, hf, rfl⟩ := List.mem_map.1 ((h1 n).2 hn)
    obtain ⟨d, j1, j2⟩ := h3 f hf
    exact he ((exportable_iff _).2 ⟨d, f, j1, j2⟩)

end Caesar.Mc
