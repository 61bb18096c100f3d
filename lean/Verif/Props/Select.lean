import Verif.Model.Select
import Verif.Lemmas.Dict
import Mathlib.Tactic.Tauto

/-!
# C35: chained selects mean OR of ANDs
-/

set_option linter.unusedSectionVars false

namespace Mixtera

/-! ### Specification -/

/-- The values a condition names. -/
def CondVal.values : CondVal → List PyStr
  | .none => []
  | .one v => [v]
  | .many l => l.filterMap id

/-- What a condition asks of a sample. `None` asks for (non-)NULL; otherwise the property must be present and:
for a list-valued property `==` asks for a common value and `!=` for none; for a single-valued property `==` asks for
one of the values, `!=` for none of them and an ordering operator for the ordering with one of them. -/
def Sat (row : SRow) (op : SqlOp) (c : Cond) : Prop :=
  match c.value with
  | .none => if op = .eq then row c.field = .null else row c.field ≠ .null
  | v =>
    match row c.field with
    | .null => False
    | .list vs => if op = .eq then ∃ x ∈ v.values, some x ∈ vs else ∀ x ∈ v.values, some x ∉ vs
    | .str a =>
      match op with
      | .eq => a ∈ v.values
      | .ne => a ∉ v.values
      | .gt => ∃ x ∈ v.values, x < a
      | .lt => ∃ x ∈ v.values, a < x
      | .ge => ∃ x ∈ v.values, x ≤ a
      | .le => ∃ x ∈ v.values, a ≤ x

/-- How a user writes the operator. -/
def SqlOp.written : SqlOp → PyStr
  | .eq => "==".toList
  | .ne => "!=".toList
  | .gt => ">".toList
  | .lt => "<".toList
  | .ge => ">=".toList
  | .le => "<=".toList

/-- The condition is satisfied (its operator is one of the supported ones). -/
def Cond.sat (row : SRow) (c : Cond) : Prop := ∃ op, c.op = SqlOp.written op ∧ Sat row op c

/-- The row's cells have the types of their columns. -/
def Conforms (schema : Dict PyStr Bool) (row : SRow) : Prop :=
  ∀ f arr, schema.get? f = some arr → row f = .null ∨ (if arr then ∃ vs, row f = .list vs else ∃ s, row f = .str s)

/-- The code does not skip the condition: known field and operator, values given, ordering not against `None`. -/
def Usable (schema : Dict PyStr Bool) (c : Cond) : Prop :=
  c.field ∈ schema.keys ∧ c.value ≠ .many [] ∧
    ∃ op, c.op = SqlOp.written op ∧ (c.value = .none → op = .eq ∨ op = .ne)

/-- The generated SQL expresses the condition: no `None` inside a list, no ordering operator on a list column. -/
def Expressible (schema : Dict PyStr Bool) (c : Cond) : Prop :=
  (∀ l, c.value = .many l → ∀ v ∈ l, v ≠ none) ∧
  (schema.get? c.field = some true → c.value ≠ .none → c.op = "==".toList ∨ c.op = "!=".toList)

/-! ### Proofs -/

theorem opMap_iff (s : PyStr) (op : SqlOp) : opMap s = some op ↔ s = SqlOp.written op := by
  constructor
  · intro h
    unfold opMap at h
    repeat' split at h
    all_goals first | (injection h with h; subst h; assumption) | cases h
  · rintro rfl
    cases op <;> decide

theorem usable_iff (schema : Dict PyStr Bool) (c : Cond) : Usable schema c ↔ (genCond schema c).isSome = true := by
  unfold Usable genCond
  cases hf : schema.get? c.field with
  | none => simp [(Dict.get?_eq_none_iff _ _).mp hf]
  | some arr =>
    have hk : c.field ∈ schema.keys := (Dict.mem_keys_iff _ _).mpr ⟨_, hf⟩
    cases ho : opMap c.op with
    | none =>
      simp only [Option.isSome_none, Bool.false_eq_true, iff_false, not_and, not_exists]
      intro _ _ op hop
      rw [(opMap_iff _ _).mpr hop] at ho
      cases ho
    | some op =>
      have hop := (opMap_iff _ _).mp ho
      have huniq : ∀ op', c.op = SqlOp.written op' → op' = op := by
        intro op' h
        rw [(opMap_iff _ _).mpr h] at ho
        exact Option.some.inj ho
      rcases c with ⟨f, o, v⟩
      dsimp only at *
      have key : (∃ op', o = SqlOp.written op' ∧ (v = .none → op' = .eq ∨ op' = .ne)) ↔ (v = .none → op = .eq ∨ op = .ne) := by
        constructor
        · rintro ⟨op', h1, h2⟩; rw [← huniq op' h1]; exact h2
        · intro h; exact ⟨op, hop, h⟩
      rw [key]
      rcases v with _ | v | (_ | ⟨v, _ | ⟨w, l⟩⟩) <;> cases arr <;> cases op <;> simp [hk]

theorem or3_true {a b : Option Bool} : or3 a b = some true ↔ a = some true ∨ b = some true := by
  rcases a with _ | _ | _ <;> rcases b with _ | _ | _ <;> simp [or3]

theorem and3_true {a b : Option Bool} : and3 a b = some true ↔ a = some true ∧ b = some true := by
  rcases a with _ | _ | _ <;> rcases b with _ | _ | _ <;> simp [and3]

theorem not3_true {a : Option Bool} : not3 a = some true ↔ a = some false := by
  rcases a with _ | _ | _ <;> simp [not3]

theorem or3_false {a b : Option Bool} : or3 a b = some false ↔ a = some false ∧ b = some false := by
  rcases a with _ | _ | _ <;> rcases b with _ | _ | _ <;> simp [or3]

theorem foldr_or3_true {α : Type} (g : α → Option Bool) (l : List α) :
    l.foldr (fun p a => or3 (g p) a) (some false) = some true ↔ ∃ p ∈ l, g p = some true := by
  induction l with
  | nil => simp
  | cons p l ih => rw [List.foldr_cons, or3_true, ih]; simp

theorem foldr_or3_false {α : Type} (g : α → Option Bool) (l : List α) :
    l.foldr (fun p a => or3 (g p) a) (some false) = some false ↔ ∀ p ∈ l, g p = some false := by
  induction l with
  | nil => simp
  | cons p l ih => rw [List.foldr_cons, or3_false, ih]; simp

theorem run_ok {row : SRow} {cl : Clause} {ps rest : List Param} (h : ps.length = cl.holes)
    (hna : ∀ f op, cl ≠ .anyValue f op) : cl.run row (ps ++ rest) = some (cl.eval row ps, rest) := by
  have key : (if (ps ++ rest).length < cl.holes then none
      else some (cl.eval row ((ps ++ rest).take cl.holes), (ps ++ rest).drop cl.holes)) = some (cl.eval row ps, rest) := by
    rw [if_neg (by rw [List.length_append]; omega), ← h, List.take_left, List.drop_left]
  cases cl <;> first | exact key | exact absurd rfl (hna _ _)

/-- A condition's clause binds exactly the condition's own parameters and expresses the condition. -/
theorem genCond_run {schema : Dict PyStr Bool} {row : SRow} (hrow : Conforms schema row) {c : Cond}
    (he : Expressible schema c) {cl : Clause} {ps : List Param} (hg : genCond schema c = some (cl, ps))
    (rest : List Param) :
    ∃ v, cl.run row (ps ++ rest) = some (v, rest) ∧ (v = some true ↔ c.sat row) := by
  unfold genCond at hg
  cases hf : schema.get? c.field with
  | none => rw [hf] at hg; simp at hg
  | some arr =>
    rw [hf] at hg
    dsimp only at hg
    cases ho : opMap c.op with
    | none => rw [ho] at hg; simp at hg
    | some op =>
      rw [ho] at hg
      dsimp only at hg
      have hsat : c.sat row ↔ Sat row op c := by
        unfold Cond.sat
        constructor
        · rintro ⟨op', e, h⟩
          rw [(opMap_iff _ _).mpr e] at ho
          cases ho
          exact h
        · intro h; exact ⟨op, (opMap_iff _ _).mp ho, h⟩
      rw [hsat]
      have hr := hrow c.field arr hf
      cases hv : c.value with
      | none =>
        rw [hv] at hg
        cases op <;> simp at hg
        all_goals
          obtain ⟨rfl, rfl⟩ := hg
          refine ⟨_, run_ok rfl (by simp), ?_⟩
          simp [Clause.eval, Sat, hv]
      | one v =>
        rw [hv] at hg
        dsimp only at hg
        cases arr with
        | true =>
          have hop := (he.2 hf (by rw [hv]; simp)).imp (opMap_iff _ .eq).mpr (opMap_iff _ .ne).mpr
          rw [ho] at hop
          simp only [if_true] at hg hr
          cases op <;> simp at hop hg
          all_goals
            obtain ⟨rfl, rfl⟩ := hg
            refine ⟨_, run_ok rfl (by simp), ?_⟩
            rcases hr with hr | ⟨vs, hr⟩
            · simp [Clause.eval, Sat, hv, hr, arrayHasAny, not3]
            · simp [Clause.eval, Sat, hv, hr, arrayHasAny, CondVal.values, not3]
        | false =>
          simp only [Bool.false_eq_true, if_false, Option.some.injEq, Prod.mk.injEq] at hg hr
          obtain ⟨rfl, rfl⟩ := hg
          refine ⟨_, run_ok rfl (by simp), ?_⟩
          rcases hr with hr | ⟨a, hr⟩
          · simp [Clause.eval, Sat, hv, hr, SqlOp.eval]
          · cases op <;> simp [Clause.eval, Sat, hv, hr, SqlOp.eval, SqlOp.holds, CondVal.values]
      | many l =>
        have hnn := he.1 l hv
        rw [hv] at hg
        match l, hnn, hv, hg with
        | [], _, _, hg => simp at hg
        | [v], hnn, hv, hg =>
          dsimp only at hg
          obtain ⟨x, rfl⟩ := Option.ne_none_iff_exists'.mp (hnn v (by simp))
          cases arr with
          | true =>
            have hop := (he.2 hf (by rw [hv]; simp)).imp (opMap_iff _ .eq).mpr (opMap_iff _ .ne).mpr
            rw [ho] at hop
            simp only [if_true] at hg hr
            cases op <;> simp at hop hg
            all_goals
              obtain ⟨rfl, rfl⟩ := hg
              refine ⟨_, run_ok rfl (by simp), ?_⟩
              rcases hr with hr | ⟨vs, hr⟩
              · simp [Clause.eval, Sat, hv, hr, arrayHasAny, not3]
              · simp [Clause.eval, Sat, hv, hr, arrayHasAny, CondVal.values, not3]
          | false =>
            simp only [Bool.false_eq_true, if_false, Option.some.injEq, Prod.mk.injEq] at hg hr
            obtain ⟨rfl, rfl⟩ := hg
            refine ⟨_, run_ok rfl (by simp), ?_⟩
            rcases hr with hr | ⟨a, hr⟩
            · simp [Clause.eval, Sat, hv, hr, SqlOp.eval]
            · cases op <;> simp [Clause.eval, Sat, hv, hr, SqlOp.eval, SqlOp.holds, CondVal.values]
        | v :: w :: l, hnn, hv, hg =>
          dsimp only at hg
          have hvals : ∀ x, x ∈ (CondVal.many (v :: w :: l)).values ↔ some x ∈ v :: w :: l := by
            intro x
            simp only [CondVal.values, List.mem_filterMap, id]
            constructor
            · rintro ⟨a, ha, rfl⟩; exact ha
            · intro h; exact ⟨_, h, rfl⟩
          generalize hL : v :: w :: l = L at *
          have hlen : L.length = l.length + 2 := by rw [← hL]; rfl
          cases arr with
          | true =>
            have hop := (he.2 hf (by rw [hv]; simp)).imp (opMap_iff _ .eq).mpr (opMap_iff _ .ne).mpr
            rw [ho] at hop
            simp only [if_true] at hg hr
            have hany : ∀ vs : List (Option PyStr), (L.any fun p => p.isSome && vs.contains p) = true ↔
                ∃ x, some x ∈ L ∧ some x ∈ vs := by
              intro vs
              rw [List.any_eq_true]
              constructor
              · rintro ⟨p, hp, h⟩
                rw [Bool.and_eq_true, Option.isSome_iff_exists] at h
                obtain ⟨⟨x, rfl⟩, h⟩ := h
                exact ⟨x, hp, by simpa using h⟩
              · rintro ⟨x, h1, h2⟩
                exact ⟨some x, h1, by simpa using h2⟩
            cases op <;> simp at hop hg
            all_goals
              obtain ⟨rfl, rfl⟩ := hg
              refine ⟨_, run_ok hlen (by simp), ?_⟩
              rcases hr with hr | ⟨vs, hr⟩
              · simp [Clause.eval, Sat, hv, hr, arrayHasAny, not3]
              · simp only [Clause.eval, Sat, hv, hr, arrayHasAny, not3_true, Option.some.injEq, hvals, reduceCtorEq,
                  if_true, if_false]
                first
                  | exact hany vs
                  | (rw [← Bool.not_eq_true, hany]; push Not; rfl)
          | false =>
            simp only [Bool.false_eq_true, if_false] at hg hr
            cases op <;> simp only [Option.some.injEq, Prod.mk.injEq] at hg
            all_goals
              obtain ⟨rfl, rfl⟩ := hg
              refine ⟨_, run_ok hlen (by simp), ?_⟩
              rcases hr with hr | ⟨a, hr⟩
              · simp [Clause.eval, Sat, hv, hr, SqlOp.eval, foldr_or3_true, foldr_or3_false, not3_true]
                try exact ⟨v, by rw [← hL]; simp⟩
              · simp only [Clause.eval, Sat, hv, hr, foldr_or3_true, foldr_or3_false, not3_true, hvals]
                constructor
                · first
                    | (rintro ⟨p, hp, h⟩
                       obtain ⟨x, rfl⟩ := Option.ne_none_iff_exists'.mp (hnn p hp)
                       simp [SqlOp.eval, SqlOp.holds] at h
                       first | exact ⟨x, hp, h⟩ | exact h ▸ hp)
                    | (intro h hc
                       have := h _ hc
                       simp [SqlOp.eval, SqlOp.holds] at this)
                · first
                    | (rintro ⟨x, hx, h⟩
                       exact ⟨some x, hx, by simp [SqlOp.eval, SqlOp.holds, h]⟩)
                    | (intro h
                       first
                        | exact ⟨some a, h, by simp [SqlOp.eval, SqlOp.holds]⟩
                        | (intro p hp
                           obtain ⟨x, rfl⟩ := Option.ne_none_iff_exists'.mp (hnn p hp)
                           have : a ≠ x := by rintro rfl; exact h hp
                           simp [SqlOp.eval, SqlOp.holds, this]))

theorem processConditions_eq (schema : Dict PyStr Bool) (conds : List Cond) :
    processConditions schema conds =
      ((conds.filterMap (genCond schema)).map Prod.fst, (conds.filterMap (genCond schema)).flatMap Prod.snd) := by
  unfold processConditions
  have : ∀ (l : List Cond) (acc : List Clause × List Param),
      l.foldl (addCond schema) acc =
      (acc.1 ++ (l.filterMap (genCond schema)).map Prod.fst, acc.2 ++ (l.filterMap (genCond schema)).flatMap Prod.snd) := by
    intro l
    induction l with
    | nil => intro acc; simp
    | cons c l ih =>
      intro acc
      rw [List.foldl_cons, ih, List.filterMap_cons, addCond]
      cases hg : genCond schema c with
      | none => simp
      | some x => obtain ⟨cl, ps⟩ := x; simp
  simpa using this conds ([], [])

/-- The conjunction of the usable conditions. -/
theorem runConj_conds {schema : Dict PyStr Bool} {row : SRow} (hrow : Conforms schema row) (conds : List Cond)
    (he : ∀ c ∈ conds, Expressible schema c) (rest : List Param) :
    ∃ v, runConj row ((conds.filterMap (genCond schema)).flatMap Prod.snd ++ rest)
        ((conds.filterMap (genCond schema)).map Prod.fst) = some (v, rest) ∧
      (v = some true ↔ ∀ c ∈ conds, Usable schema c → c.sat row) := by
  induction conds with
  | nil => exact ⟨some true, rfl, by simp⟩
  | cons c conds ih =>
    obtain ⟨v, h1, h2⟩ := ih fun x hx => he x (by simp [hx])
    rw [List.filterMap_cons]
    cases hg : genCond schema c with
    | none =>
      refine ⟨v, h1, ?_⟩
      rw [h2]
      simp [usable_iff, hg]
    | some x =>
      obtain ⟨cl, ps⟩ := x
      obtain ⟨u, h3, h4⟩ := genCond_run hrow (he c (by simp)) hg
        ((conds.filterMap (genCond schema)).flatMap Prod.snd ++ rest)
      refine ⟨and3 u v, ?_, ?_⟩
      · simp only [List.map_cons, List.flatMap_cons, List.append_assoc]
        rw [runConj, h3]
        simp only [Option.bind_eq_bind, Option.bind_some]
        rw [h1]
        rfl
      · rw [and3_true, h2, h4]
        simp [usable_iff, hg]

/-- A select without children. -/
def leaf (conds : List Cond) : Sel := .node conds []

theorem buildQuery_eq (c : List Cond) (cs : List (List Cond)) : buildQuery (c :: cs) = some (.node c (cs.map leaf)) := by
  unfold buildQuery
  have : ∀ (l : List (List Cond)) (ch : List Sel),
      l.foldl addSelect (some (.node c ch)) = some (.node c (ch ++ l.map leaf)) := by
    intro l
    induction l with
    | nil => intro ch; simp
    | cons x l ih =>
      intro ch
      rw [List.foldl_cons, addSelect, ih]
      simp [leaf]
  rw [List.foldl_cons]
  have := this cs []
  simpa [addSelect] using this

/-- The select has a condition the code does not skip. -/
def HasUsable (schema : Dict PyStr Bool) (conds : List Cond) : Prop := ∃ c ∈ conds, Usable schema c

theorem isEmpty_iff (schema : Dict PyStr Bool) (conds : List Cond) :
    (processConditions schema conds).1.isEmpty = true ↔ ¬ HasUsable schema conds := by
  rw [processConditions_eq]
  simp only [List.isEmpty_iff, List.map_eq_nil_iff]
  rw [List.filterMap_eq_nil_iff]
  unfold HasUsable
  simp only [usable_iff]
  push Not
  constructor
  · intro h c hc; rw [h c hc]; simp
  · intro h c hc; simpa using h c hc

theorem genWhere_leaf (schema : Dict PyStr Bool) (conds : List Cond) :
    genWhere schema (leaf conds) = if (processConditions schema conds).1.isEmpty then ([], [])
      else ([.conj (processConditions schema conds).1], (processConditions schema conds).2) := by
  unfold leaf
  rw [genWhere]
  simp [genChildren]

/-- The disjunction over the children. -/
theorem runDisj_children {schema : Dict PyStr Bool} {row : SRow} (hrow : Conforms schema row) (sels : List (List Cond))
    (he : ∀ s ∈ sels, ∀ c ∈ s, Expressible schema c) :
    ∃ v, runDisj row (genChildren schema (sels.map leaf)).2 (genChildren schema (sels.map leaf)).1 = some (v, []) ∧
      ((genChildren schema (sels.map leaf)).1.isEmpty = true ↔ ∀ s ∈ sels, ¬ HasUsable schema s) ∧
      (v = some true ↔ ∃ s ∈ sels, HasUsable schema s ∧ ∀ c ∈ s, Usable schema c → c.sat row) := by
  induction sels with
  | nil => exact ⟨some false, rfl, by simp [genChildren], by simp⟩
  | cons s sels ih =>
    obtain ⟨v, h1, h2, h3⟩ := ih fun x hx => he x (by simp [hx])
    rw [List.map_cons, genChildren]
    rw [genWhere_leaf]
    by_cases hs : (processConditions schema s).1.isEmpty = true
    · have hu := (isEmpty_iff schema s).mp hs
      rw [if_pos hs]
      refine ⟨v, by simpa using h1, ?_, ?_⟩
      · simp only [List.isEmpty_nil, if_true]
        rw [h2]; simp [hu]
      · rw [h3]; simp [hu]
    · have hu : HasUsable schema s := by
        by_contra hc; exact hs ((isEmpty_iff schema s).mpr hc)
      rw [if_neg hs]
      simp only [List.isEmpty_cons, Bool.false_eq_true, if_false]
      obtain ⟨u, h4, h5⟩ := runConj_conds hrow s (he s (by simp)) (genChildren schema (sels.map leaf)).2
      refine ⟨or3 u v, ?_, ?_, ?_⟩
      · rw [runDisj, Where.run, runDisj, Where.run, processConditions_eq, h4]
        simp only [Option.bind_eq_bind, Option.bind_some, runDisj]
        have h6 : or3 (or3 u (some false)) v = or3 u v := by rcases u with _ | _ | _ <;> rcases v with _ | _ | _ <;> rfl
        rw [← h6]
        show (runDisj row _ _).bind _ = _
        rw [h1]; rfl
      · simp [hu]
      · rw [or3_true, h5, h3]
        simp [hu]

/-- **C35, exact meaning**: for chained selects whose conditions the SQL can express, a row is selected iff no select has
a usable condition, or some select has one and all its usable conditions are satisfied. In particular the statement is
always executable: every placeholder has a parameter, each condition's placeholders get that condition's values, and no
parameter is left over. -/
theorem c35_exact_meaning (schema : Dict PyStr Bool) (row : SRow) (hrow : Conforms schema row) (sels : List (List Cond))
    (he : ∀ s ∈ sels, ∀ c ∈ s, Expressible schema c) (q : Sel) (hq : buildQuery sels = some q) :
    ∃ b, selectRow schema q row = some b ∧
      (b = true ↔ (∀ s ∈ sels, ¬ HasUsable schema s) ∨
        ∃ s ∈ sels, HasUsable schema s ∧ ∀ c ∈ s, Usable schema c → c.sat row) := by
  cases sels with
  | nil => simp [buildQuery] at hq
  | cons c cs =>
    rw [buildQuery_eq] at hq
    simp only [Option.some.injEq] at hq
    subst hq
    obtain ⟨v, h1, h2, h3⟩ := runDisj_children hrow cs fun s hs => he s (by simp [hs])
    unfold selectRow
    rw [genWhere]
    by_cases hs : (processConditions schema c).1.isEmpty = true
    · have hu := (isEmpty_iff schema c).mp hs
      rw [if_pos hs]
      by_cases hall : (genChildren schema (cs.map leaf)).1.isEmpty = true
      · have hnil : (genChildren schema (cs.map leaf)).2 = [] := by
          have : (genChildren schema (cs.map leaf)).1 = [] := by simpa using hall
          rw [this, runDisj] at h1
          simp only [Option.some.injEq, Prod.mk.injEq] at h1
          exact h1.2
        rw [if_pos hall, hnil]
        refine ⟨true, rfl, ?_⟩
        simp only [true_iff]
        left
        intro s hs'
        rcases List.mem_cons.mp hs' with rfl | hs'
        · exact hu
        · exact h2.mp hall s hs'
      · rw [if_neg hall, h1]
        refine ⟨_, rfl, ?_⟩
        have hex : ¬ ∀ s ∈ c :: cs, ¬ HasUsable schema s := by
          intro h; exact hall (h2.mpr fun s hs' => h s (by simp [hs']))
        simp only [hex, false_or, beq_iff_eq]
        rw [h3]
        simp [hu]
    · have hu : HasUsable schema c := by
        by_contra hc; exact hs ((isEmpty_iff schema c).mpr hc)
      rw [if_neg hs]
      obtain ⟨u, h4, h5⟩ := runConj_conds hrow c (he c (by simp)) (genChildren schema (cs.map leaf)).2
      have hrun : runDisj row ((processConditions schema c).2 ++ (genChildren schema (cs.map leaf)).2)
          (Where.conj (processConditions schema c).1 :: (genChildren schema (cs.map leaf)).1) = some (or3 u v, []) := by
        rw [runDisj, Where.run, processConditions_eq, h4]
        simp only [Option.bind_eq_bind, Option.bind_some]
        rw [h1]
        rfl
      simp only [List.isEmpty_cons, Bool.false_eq_true, if_false]
      rw [hrun]
      refine ⟨_, rfl, ?_⟩
      have hex : ¬ ∀ s ∈ c :: cs, ¬ HasUsable schema s := fun h => h c (by simp) hu
      simp only [hex, false_or, beq_iff_eq]
      rw [or3_true, h5, h3]
      simp [hu]

/-- **C35**: if every select has at least one condition and the code skips none, a row is selected iff it satisfies all
conditions of at least one select. -/
theorem c35_or_of_ands_partial (schema : Dict PyStr Bool) (row : SRow) (hrow : Conforms schema row)
    (sels : List (List Cond)) (hne : ∀ s ∈ sels, s ≠ []) (hus : ∀ s ∈ sels, ∀ c ∈ s, Usable schema c)
    (he : ∀ s ∈ sels, ∀ c ∈ s, Expressible schema c) (q : Sel) (hq : buildQuery sels = some q) :
    ∃ b, selectRow schema q row = some b ∧ (b = true ↔ ∃ s ∈ sels, ∀ c ∈ s, c.sat row) := by
  obtain ⟨b, h1, h2⟩ := c35_exact_meaning schema row hrow sels he q hq
  refine ⟨b, h1, h2.trans ?_⟩
  have hu : ∀ s ∈ sels, HasUsable schema s := by
    intro s hs
    obtain ⟨c, hc⟩ := List.exists_mem_of_ne_nil s (hne s hs)
    exact ⟨c, hc, hus s hs c hc⟩
  constructor
  · rintro (h | ⟨s, hs, _, h⟩)
    · cases sels with
      | nil => simp [buildQuery] at hq
      | cons s l => exact absurd (hu s (by simp)) (h s (by simp))
    · exact ⟨s, hs, fun c hc => h c hc (hus s hs c hc)⟩
  · rintro ⟨s, hs, h⟩
    exact Or.inr ⟨s, hs, hu s hs, fun c hc _ => h c hc⟩

/-- A small schema and rows for the examples. -/
def exSchema : Dict PyStr Bool := [("lang".toList, true), ("lic".toList, false)]

/-- A row of the example schema. -/
def exRow (lang lic : Cell) : SRow := fun f => if f = "lang".toList then lang else if f = "lic".toList then lic else .null

/-- Non-vacuity: `select([lang == [de, en], lic != MIT]).select(lic == None)`. -/
example : let sels : List (List Cond) := [[⟨"lang".toList, "==".toList, .many [some "de".toList, some "en".toList]⟩,
      ⟨"lic".toList, "!=".toList, .one "MIT".toList⟩], [⟨"lic".toList, "==".toList, .none⟩]]
    (∀ s ∈ sels, s ≠ []) ∧ (∀ s ∈ sels, ∀ c ∈ s, (genCond exSchema c).isSome = true) ∧
    (buildQuery sels).map (fun q => (selectRow exSchema q (exRow (.list [some "en".toList]) (.str "GPL".toList)),
      selectRow exSchema q (exRow (.list [some "en".toList]) (.str "MIT".toList)),
      selectRow exSchema q (exRow .null .null),
      selectRow exSchema q (exRow (.list [some "fr".toList]) (.str "GPL".toList)))) =
      some (some true, some false, some true, some false) := by
  refine ⟨by decide, by decide, by decide⟩

/-- C35 fails for a select without usable conditions: alone it selects everything, chained with another one it selects
nothing, although "no condition" holds for every row. -/
theorem c35_empty_select_ignored :
    (buildQuery [[]]).bind (fun q => selectRow exSchema q (exRow .null .null)) = some true ∧
    (buildQuery [[], [⟨"lic".toList, "==".toList, .one "MIT".toList⟩]]).bind
      (fun q => selectRow exSchema q (exRow .null .null)) = some false ∧
    (buildQuery [[⟨"unknown".toList, "==".toList, .one "x".toList⟩], [⟨"lic".toList, "==".toList, .one "MIT".toList⟩]]).bind
      (fun q => selectRow exSchema q (exRow .null .null)) = some false := by
  refine ⟨by decide, by decide, by decide⟩

/-- C35 fails for `None` inside a list: `lic != [MIT, None]` selects nothing, not even a row with another licence. -/
theorem c35_none_in_list :
    (buildQuery [[⟨"lic".toList, "!=".toList, .many [some "MIT".toList, none]⟩]]).bind
      (fun q => selectRow exSchema q (exRow .null (.str "GPL".toList))) = some false := by decide

/-- C35 fails for ordering operators on list columns: the statement is rejected (an aggregate in a `WHERE`). -/
theorem c35_ordering_on_list_column (row : SRow) :
    (buildQuery [[⟨"lang".toList, ">".toList, .one "de".toList⟩]]).bind (fun q => selectRow exSchema q row) = none := by
  rfl

end Mixtera
