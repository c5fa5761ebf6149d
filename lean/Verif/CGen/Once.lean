import Verif.CGen.Theorems
import Mathlib.Data.Finset.Card
import Mathlib.Data.Finset.Insert

/-!
# C76: each operation of a straight-line description is computed once
-/

namespace Verif.CGen

open Verif.Names (Name)

/-! ## Specification -/

/-- Number of operators in a C expression. -/
def opsE : CExpr → ℕ
  | .cst _ => 0
  | .var _ => 0
  | .un _ a => opsE a + 1
  | .bin _ a b => opsE a + opsE b + 1

/-- Number of operators in C statements. -/
def ops : Code → ℕ
  | .skip => 0
  | .seq s t => ops s + ops t
  | .assign _ e => opsE e
  | .ite e _ s _ t => opsE e + ops s + ops t
  | .loop e _ s => opsE e + ops s
  | .ret e => opsE e

def Node.isOp : Node → Bool
  | .un _ _ _ => true
  | .bin _ _ _ _ => true
  | _ => false

/-- Neither conditionals nor loops. -/
def Straight : Stmt → Prop
  | .skip => True
  | .seq s t => Straight s ∧ Straight t
  | .expr _ => True
  | .assign _ _ => True
  | .ite _ _ _ => False
  | .loop _ _ _ => False
  | .ret _ => True

/-- The different operations of a description. -/
def distinctOps (s : Stmt) : Finset Node := (nodes s).toFinset.filter (·.isOp = true)

/-! ## Proof -/

def cnt (M : Vis) : Finset Node := M.all.toFinset.filter (·.isOp = true)

theorem cnt_mem {M : Vis} {n : Node} : n ∈ cnt M ↔ n ∈ M.all ∧ n.isOp = true := by simp [cnt]

theorem clean_nil (n : Node) : Clean [] n := by intro p _ ds _; simp

theorem op_var {k st M} (hw : Wf [] k st M (fun _ => True)) {n : Node} {e : CExpr}
    (hk : ∀ m ∈ M.all, m.isOp = true → m ∈ M.stored) (he : find k st n = some e) : opsE e = 0 := by
  have hall : n ∈ M.all := (hw.dom n).1 (by rw [he]; rfl)
  have hslot : slot M n → opsE e = 0 := by
    intro h
    obtain ⟨t, _, rfl⟩ := hw.shape n trivial h e he
    rfl
  cases n with
  | cst i c => rw [hw.cst i c e he]; rfl
  | var x =>
    cases x with
    | input t => rw [hw.inp t e he]; rfl
    | loc i t => exact hslot (.inl rfl)
  | un i o a => exact hslot (.inr (hk _ hall rfl))
  | bin i o a b => exact hslot (.inr (hk _ hall rfl))

theorem stored_add {M : Vis} {e : Node} (hk : ∀ m ∈ M.all, m.isOp = true → m ∈ M.stored)
    (he : ∀ m ∈ sub e, m.isOp = true → kept false m = true) :
    ∀ m ∈ (M.add false e).all, m.isOp = true → m ∈ (M.add false e).stored := by
  intro m hm ho
  rw [add_stored]
  by_cases h : m ∈ M.all
  · exact .inl (hk m h ho)
  · have h' := (add_all.1 hm).resolve_left h
    exact .inr ⟨h', h, he m h' ho⟩

theorem cnt_push {M M' : Vis} {n : Node} (h : n ∉ M.all) (ho : n.isOp = true)
    (hM : ∀ m, m ∈ M'.all ↔ m = n ∨ m ∈ M.all) : (cnt M').card = (cnt M).card + 1 := by
  have : cnt M' = insert n (cnt M) := by
    ext m
    rw [Finset.mem_insert, cnt_mem, cnt_mem, hM]
    constructor
    · rintro ⟨rfl | h1, h2⟩
      · exact .inl rfl
      · exact .inr ⟨h1, h2⟩
    · rintro (rfl | ⟨h1, h2⟩)
      · exact ⟨.inl rfl, ho⟩
      · exact ⟨.inr h1, h2⟩
  rw [this, Finset.card_insert_of_notMem]
  rw [cnt_mem]
  exact fun h' => h h'.1

theorem cnt_congr {M M' : Vis} (hM : ∀ m, m ∈ M.all ↔ m ∈ M'.all) : cnt M = cnt M' := by
  ext m; rw [cnt_mem, cnt_mem, hM]

theorem genE_ops {k : Ctx} : ∀ (e : Node) (st : St) (M : Vis), Wf [] k st M (fun _ => True) →
    (∀ m ∈ M.all, m.isOp = true → m ∈ M.stored) →
    (∀ m ∈ sub e, m.isOp = true → kept false m = true) →
    ops (genE k false e st).2.1 + (cnt M).card = (cnt (M.add false e)).card := by
  have found : ∀ (e : Node) (x : CExpr) (st : St) (M : Vis), Wf [] k st M (fun _ => True) →
      find k st e = some x → 0 + (cnt M).card = (cnt (M.add false e)).card := by
    intro e x st M hw he
    have : e ∈ M.all := (hw.dom e).1 (by rw [he]; rfl)
    rw [cnt_congr (add_found (c := false) this hw.closed).1, Nat.zero_add]
  have leaf : ∀ (e : Node) (M : Vis), sub e = [e] → e.isOp = false →
      0 + (cnt M).card = (cnt (M.add false e)).card := by
    intro e M hs ho
    rw [Nat.zero_add]
    congr 1
    ext m
    rw [cnt_mem, cnt_mem, add_all, hs, List.mem_singleton]
    constructor
    · exact fun h => ⟨.inl h.1, h.2⟩
    · rintro ⟨h | rfl, h'⟩
      · exact ⟨h, h'⟩
      · rw [ho] at h'; cases h'
  intro e
  induction e with
  | cst i v =>
    intro st M hw hk hs
    unfold genE
    cases h : find k st (.cst i v) with
    | some x => exact found _ x st M hw h
    | none => exact leaf _ M rfl rfl
  | var x =>
    intro st M hw hk hs
    cases x with
    | input t =>
      unfold genE
      cases h : find k st (.var (.input t)) with
      | some x => exact found _ x st M hw h
      | none => exact leaf _ M rfl rfl
    | loc i t =>
      unfold genE
      cases h : find k st (.var (.loc i t)) with
      | some x => exact found _ x st M hw h
      | none => exact leaf _ M rfl rfl
  | un i o a ih =>
    intro st M hw hk hs
    unfold genE
    cases h : find k st (.un i o a) with
    | some x => exact found _ x st M hw h
    | none =>
      have hno := hw.none h
      have hsa : ∀ m ∈ sub a, m.isOp = true → kept false m = true :=
        fun m hm => hs m (by simp [sub, hm])
      obtain ⟨w1, f1, _⟩ := genE_good false a st M hw (fun m _ => clean_nil m)
      have k1 := stored_add hk hsa
      have h1 := ih st M hw hk hsa
      have hst : stores i false = true := by
        rw [stores_kept_un false i o a]; exact hs _ (self_mem_sub _) rfl
      have hz := op_var w1 k1 f1
      have hc := cnt_push (M := M.add false a) (M' := M.add false (.un i o a)) (n := .un i o a)
        (by rw [add_all]; rintro (h' | h'); exacts [hno h', un_not_sub i o a h']) rfl
        (fun m => by rw [add_all, add_all]; simp only [sub, List.mem_cons]; tauto)
      simp only [assemble, hst, if_true, ops, opsE]
      omega
  | bin i o a b iha ihb =>
    intro st M hw hk hs
    unfold genE
    cases h : find k st (.bin i o a b) with
    | some x => exact found _ x st M hw h
    | none =>
      have hno := hw.none h
      have hsa : ∀ m ∈ sub a, m.isOp = true → kept false m = true :=
        fun m hm => hs m (by simp [sub, hm])
      have hsb : ∀ m ∈ sub b, m.isOp = true → kept false m = true :=
        fun m hm => hs m (by simp [sub, hm])
      have hst : stores i false = true := by
        rw [stores_kept_bin false i o a b]; exact hs _ (self_mem_sub _) rfl
      cases hsw : i.swap with
      | true =>
        simp only [hsw, if_true]
        obtain ⟨w1, f1, x1⟩ := genE_good false b st M hw (fun m _ => clean_nil m)
        obtain ⟨w2, f2, x2⟩ := genE_good false a _ _ w1 (fun m _ => clean_nil m)
        have k1 := stored_add hk hsb
        have k2 := stored_add k1 hsa
        have h1 := ihb st M hw hk hsb
        have h2 := iha _ _ w1 k1 hsa
        have z1 := op_var w2 k2 (x2.find _ _ f1)
        have z2 := op_var w2 k2 f2
        have hc := cnt_push (M := (M.add false b).add false a) (M' := M.add false (.bin i o a b))
          (n := .bin i o a b)
          (by
            rw [add_all, add_all]
            rintro ((h' | h') | h')
            exacts [hno h', (bin_not_sub i o a b).2 h', (bin_not_sub i o a b).1 h']) rfl
          (fun m => by
            rw [add_all, add_all, add_all]; simp only [sub, List.mem_cons, List.mem_append]; tauto)
        simp only [assemble, hst, if_true, ops, opsE]
        omega
      | false =>
        simp only [hsw]
        rw [if_neg (by simp)]
        obtain ⟨w1, f1, x1⟩ := genE_good false a st M hw (fun m _ => clean_nil m)
        obtain ⟨w2, f2, x2⟩ := genE_good false b _ _ w1 (fun m _ => clean_nil m)
        have k1 := stored_add hk hsa
        have k2 := stored_add k1 hsb
        have h1 := iha st M hw hk hsa
        have h2 := ihb _ _ w1 k1 hsb
        have z1 := op_var w2 k2 (x2.find _ _ f1)
        have z2 := op_var w2 k2 f2
        have hc := cnt_push (M := (M.add false a).add false b) (M' := M.add false (.bin i o a b))
          (n := .bin i o a b)
          (by
            rw [add_all, add_all]
            rintro ((h' | h') | h')
            exacts [hno h', (bin_not_sub i o a b).1 h', (bin_not_sub i o a b).2 h']) rfl
          (fun m => by
            rw [add_all, add_all, add_all]; simp only [sub, List.mem_cons, List.mem_append]; tauto)
        simp only [assemble, hst, if_true, ops, opsE]
        omega

theorem gen_ops {k : Ctx} : ∀ (s : Stmt) (st : St) (M : Vis), Straight s →
    Wf [] k st M (fun _ => True) → (∀ m ∈ M.all, m.isOp = true → m ∈ M.stored) →
    (∀ m ∈ nodes s, m.isOp = true → kept false m = true) →
    Wf [] k (gen k s st).2 (M.after s) (fun _ => True) ∧
    (∀ m ∈ (M.after s).all, m.isOp = true → m ∈ (M.after s).stored) ∧
    (∀ m, m ∈ (M.after s).all ↔ m ∈ M.all ∨ m ∈ nodes s) ∧
    ops (gen k s st).1 + (cnt M).card = (cnt (M.after s)).card := by
  intro s
  induction s with
  | skip =>
    intro st M _ hw hk _
    exact ⟨hw, hk, fun m => by simp [Vis.after, nodes], by simp [gen, ops, Vis.after]⟩
  | seq s t ihs iht =>
    intro st M hst hw hk hs
    obtain ⟨w1, k1, a1, c1⟩ := ihs st M hst.1 hw hk (fun m hm => hs m (by simp [nodes, hm]))
    obtain ⟨w2, k2, a2, c2⟩ := iht _ _ hst.2 w1 k1 (fun m hm => hs m (by simp [nodes, hm]))
    refine ⟨w2, k2, fun m => ?_, ?_⟩
    · show m ∈ ((M.after s).after t).all ↔ _
      rw [a2, a1]; simp only [nodes, List.mem_append]; tauto
    · show ops _ + ops _ + _ = (cnt ((M.after s).after t)).card
      omega
  | expr e =>
    intro st M _ hw hk hs
    obtain ⟨w1, f1, x1⟩ := genE_good false e st M hw (fun m _ => clean_nil m)
    exact ⟨w1, stored_add hk hs, fun m => add_all, genE_ops e st M hw hk hs⟩
  | ret e =>
    intro st M _ hw hk hs
    obtain ⟨w1, f1, x1⟩ := genE_good false e st M hw (fun m _ => clean_nil m)
    have k1 := stored_add hk hs
    refine ⟨w1, k1, fun m => add_all, ?_⟩
    have := genE_ops e st M hw hk hs
    have z := op_var w1 k1 f1
    simp only [gen, ops, Vis.after]
    omega
  | assign x e =>
    intro st M _ hw hk hs
    have hx : ∀ m ∈ sub (.var x), m.isOp = true → kept false m = true := by
      intro m hm ho
      simp only [sub, List.mem_singleton] at hm
      subst hm
      cases ho
    have he : ∀ m ∈ sub e, m.isOp = true → kept false m = true := fun m hm => hs m (by simp [nodes, hm])
    obtain ⟨w1, f1, x1⟩ := genE_good false (.var x) st M hw (fun m _ => clean_nil m)
    have k1 := stored_add hk hx
    obtain ⟨w2, f2, x2⟩ := genE_good false e _ _ w1 (fun m _ => clean_nil m)
    have k2 := stored_add k1 he
    have c1 := genE_ops (.var x) st M hw hk hx
    have c2 := genE_ops e _ _ w1 k1 he
    have z := op_var w2 k2 f2
    have z0 : ops (genE k false (.var x) st).2.1 = 0 := by
      cases x with
      | input t => unfold genE; split <;> rfl
      | loc i t => unfold genE; split <;> rfl
    refine ⟨w2, k2, fun m => ?_, ?_⟩
    · show m ∈ ((M.add false (.var x)).add false e).all ↔ _
      rw [add_all, add_all]; simp only [sub, nodes, List.mem_singleton, List.mem_cons]; tauto
    · simp only [gen, ops, Vis.after]
      omega
  | ite c a b _ _ => intro st M h; exact h.elim
  | loop i c b _ _ => intro st M h; exact h.elim

/-- **C76.**  In a description without conditionals and loops whose operators all keep their results
in variables, however often a node is used, the generated C function contains exactly as many
operators as the description has different operations: each one is computed once. -/
theorem C76_each_operation_once (globals : List Name) (s : Stmt) (hs : Straight s)
    (hk : ∀ n ∈ nodes s, n.isOp = true → kept false n = true) :
    ops (genFun globals s).body = (distinctOps s).card := by
  have w0 : Wf [] ⟨[], [], globals⟩ {} ⟨[], []⟩ (fun _ => True) := by
    constructor <;> simp [find, findIn, opened]
  obtain ⟨_, _, a, c⟩ := gen_ops (k := ⟨[], [], globals⟩) s {} ⟨[], []⟩ hs w0 (by simp) hk
  have h0 : (cnt ⟨[], []⟩).card = 0 := rfl
  have : cnt ((⟨[], []⟩ : Vis).after s) = distinctOps s := by
    ext m
    rw [cnt_mem, a]
    simp [distinctOps]
  rw [h0, this, Nat.add_zero] at c
  exact c

/-- A chain of `k` squarings: the expression, written out, has `2^k - 1` operators. -/
def squarings : ℕ → Node
  | 0 => xIn
  | k + 1 => .bin { id := 100 + k } 1 (squarings k) (squarings k)

example : Straight (.ret (squarings 6)) ∧
    (∀ n ∈ nodes (.ret (squarings 6)), n.isOp = true → kept false n = true) ∧
    (distinctOps (.ret (squarings 6))).card = 6 := by
  refine ⟨trivial, ?_, ?_⟩ <;> decide +kernel

end Verif.CGen
