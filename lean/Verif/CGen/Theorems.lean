import Verif.CGen.StmtSim

/-!
# C75: the generated C function computes what the description says
-/

namespace Verif.CGen

open Verif.Names (Name)

variable {V : Type}

theorem lookup_map_some (args : List (Name × V)) (p : Name) :
    (args.map fun q => (q.1, some q.2)).lookup p = (args.lookup p).map some := by
  induction args with
  | nil => rfl
  | cons a args ih =>
    obtain ⟨n, v⟩ := a
    rw [List.map_cons, List.lookup_cons, List.lookup_cons]
    by_cases h : p = n
    · subst h; simp
    · have : (p == n) = false := by simpa using h
      rw [this, ih]

/-- The generated function ends like the description. -/
theorem call_match (I : Interp V) (fuel : ℕ) (globals : List Name) (s : Stmt) (args : List (Name × V))
    (hsafe : SafeReuse s) (hclash : NoClash (args.map (·.1)) s) (hin : InputsIn (args.map (·.1)) s) :
    Match (fun _ _ => True) (exec I fuel s (initial args)) ((genFun globals s).call I fuel args) := by
  set P := args.map (·.1) with hP
  have w0 : Wf P ⟨[], [], globals⟩ {} ⟨[], []⟩ (fun n => n ∈ nodes s ∨ n ∈ ([] : List Node)) := by
    constructor <;> simp [find, findIn, opened]
  obtain ⟨w1, _, _⟩ := gen_good s ⟨[], [], globals⟩ {} ⟨[], []⟩ [] w0 hsafe hclash
  set d := (gen ⟨[], [], globals⟩ s {}).2.scope.names with hd
  have hdP : ∀ t ∈ d, t ∉ P := fun t ht => w1.args t (List.mem_append_left _ ht)
  have s0 : Sim I P ⟨[], [], globals⟩ {} ⟨[], []⟩ (fun n => n ∈ nodes s ∨ n ∈ ([] : List Node))
      (initial args) (enter d [args.map fun p => (p.1, some p.2)]) := by
    refine ⟨fun p hp => ?_, fun i t _ v hv => ?_, fun n _ hn => ?_⟩
    · rw [look_enter (fun h => hdP p h hp)]
      unfold look
      rw [lookup_map_some]
      have : (args.lookup p).isSome = true := (lookup_isSome args p).2 hp
      obtain ⟨v, hv⟩ := Option.isSome_iff_exists.1 this
      simp [initial, hv]
    · cases hv
    · cases hn
  have m := gen_sim (I := I) fuel s ⟨[], [], globals⟩ {} ⟨[], []⟩ [] (initial args) _ w0 s0 hsafe hclash
    (by simp) (fun t ht => hin t (by simpa using ht))
    (fun t ht => look_enter_bound (.inl (by simpa [opened] using ht)))
  exact match_leave m fun _ _ _ _ _ => trivial

/-- **C75** (partial: the reuse discipline `SafeReuse` is required; the `_wrong` theorems below show
what happens without it).  For every description that keeps to the discipline, every meaning of the
operators, all arguments and every number of loop iterations: if the description returns a value, the
generated C function returns the same value, without ever using a variable out of its scope or before
its initialisation; if the description loops, so does the C function. -/
theorem C75_function_computes_description_partial (I : Interp V) (fuel : ℕ) (globals : List Name)
    (s : Stmt) (args : List (Name × V)) (hsafe : SafeReuse s) (hclash : NoClash (args.map (·.1)) s)
    (hin : InputsIn (args.map (·.1)) s) :
    (∀ v, exec I fuel s (initial args) = .ret v → (genFun globals s).call I fuel args = .ret v) ∧
    (exec I fuel s (initial args) = .out → (genFun globals s).call I fuel args = .out) := by
  have m := call_match I fuel globals s args hsafe hclash hin
  exact ⟨fun v h => by rw [h] at m; exact m, fun h => by rw [h] at m; exact m⟩

theorem pure_safe : ∀ (s : Stmt) (M : Vis) (L : List Node), Pure.go s →
    (∀ n ∈ nodes s, n.isLocal = false) → Safe M L s := by
  intro s
  induction s with
  | skip => intros; trivial
  | seq s t ihs iht =>
    intro M L h hl
    exact ⟨ihs _ _ h.1 fun n hn => hl n (by simp [nodes, hn]),
      iht _ _ h.2 fun n hn => hl n (by simp [nodes, hn])⟩
  | expr e => intros; trivial
  | assign x e => intro M L h; exact h.elim
  | ite c a b iha ihb =>
    intro M L h hl
    refine ⟨iha _ _ h.1 fun n hn => hl n (by simp [nodes, hn]),
      ihb _ _ h.2 fun n hn => hl n (by simp [nodes, hn]), fun n hn h' => ?_⟩
    rw [hl n (by simp only [nodes, List.mem_append] at hn ⊢; tauto)] at h'
    cases h'
  | loop i c b _ _ => intro M L h; exact h.elim
  | ret e => intros; trivial

/-- **C75** for descriptions made of operations, conditionals and returns, however their nodes are
shared between branches and with what follows: no discipline is needed. -/
theorem C75_pure_function_computes_description (I : Interp V) (fuel : ℕ) (globals : List Name)
    (s : Stmt) (args : List (Name × V)) (hpure : Pure s) (hclash : NoClash (args.map (·.1)) s)
    (hin : InputsIn (args.map (·.1)) s) :
    ∀ v, exec I fuel s (initial args) = .ret v → (genFun globals s).call I fuel args = .ret v :=
  (C75_function_computes_description_partial I fuel globals s args (pure_safe s _ _ hpure.1 hpure.2)
    hclash hin).1

/-! ## Examples and wrong cases -/

theorem noClash_of_prefix {args : List Name} {s : Stmt}
    (h : ∀ n ∈ nodes s, ∀ a ∈ args, (hint n).all (fun p => !p.isPrefixOf a) = true) :
    NoClash args s := by
  intro n hn p hp ds _ hmem
  have := h n hn _ hmem
  rw [hp] at this
  simp only [Option.all_some, Bool.not_eq_true'] at this
  have h2 : p.isPrefixOf (p ++ ds) = true := by
    rw [List.isPrefixOf_iff_prefix]; exact List.prefix_append p ds
  rw [h2] at this
  cases this

theorem inputsIn_of_all {args : List Name} {s : Stmt}
    (h : ∀ n ∈ nodes s, (match n with | .var (.input t) => decide (t ∈ args) | _ => true) = true) :
    InputsIn args s := by
  intro t ht
  simpa using h _ ht

section Examples

/-- Integer operators: `0` is `+`, `1` is `*`, anything else is `<`. -/
def intOps : Interp ℤ where
  cst k := k
  un _ v := -v
  bin o x y := match o with | 0 => x + y | 1 => x * y | _ => if x < y then 1 else 0
  truth v := v != 0

def nm (c : Char) : Name := [c]
def xIn : Node := .var (.input ['n'])
def iLoc : Var := .loc 0 ['i']
def sLoc : Var := .loc 1 ['s']
/-- `i + 1` -/
def iNext : Node := .bin { id := 10 } 0 (.var iLoc) (.cst 11 1)
/-- `i < n` -/
def iCond : Node := .bin { id := 12 } 2 (.var iLoc) xIn
/-- `s + i` -/
def sNext : Node := .bin { id := 13 } 0 (.var sLoc) (.var iLoc)

/-- `i = 0; s = 0; while (i < n) { s = s + i; i = i + 1; } return s;` -/
def sumLoop : Stmt :=
  .seq (.loop (.seq (.assign iLoc (.cst 1 0)) (.assign sLoc (.cst 2 0))) iCond
    (.seq (.assign sLoc sNext) (.assign iLoc iNext))) (.ret (.var sLoc))

example : SafeReuse sumLoop ∧ NoClash [['n']] sumLoop ∧ InputsIn [['n']] sumLoop :=
  ⟨by decide +kernel, noClash_of_prefix (by decide +kernel), inputsIn_of_all (by decide +kernel)⟩

example : exec intOps 20 sumLoop (initial [(['n'], 5)]) = .ret 10 := by rfl

example : (genFun [] sumLoop).call intOps 20 [(['n'], 5)] = .ret 10 := by decide +kernel

/-- A node `n * n` shared by the two branches, the condition and what follows. -/
def sq : Node := .bin { id := 20 } 1 xIn xIn
def shared : Stmt :=
  .seq (.ite (.bin { id := 21 } 2 sq (.cst 22 7)) (.ret (.bin { id := 23 } 0 sq xIn))
    (.expr (.bin { id := 24 } 0 sq sq))) (.ret (.bin { id := 24 } 0 sq sq))

example : NoClash [['n']] shared ∧ InputsIn [['n']] shared :=
  ⟨noClash_of_prefix (by decide +kernel), inputsIn_of_all (by decide +kernel)⟩

example : Pure shared ∧ exec intOps 0 shared (initial [(['n'], 2)]) = .ret 6 ∧
    exec intOps 0 shared (initial [(['n'], 3)]) = .ret 18 ∧
    (genFun [] shared).call intOps 0 [(['n'], 3)] = .ret 18 := by
  exact ⟨⟨by simp [shared, Pure.go], by decide +kernel⟩, rfl, rfl, by decide +kernel⟩

/-- After the loop `i + 1`, first met in its body, is used again. -/
def reuseAfterLoop : Stmt :=
  .seq (.loop (.assign iLoc (.cst 1 0)) iCond (.assign iLoc iNext))
    (.seq (.expr sq) (.ret iNext))
/-- `i + 1` is used before and after an assignment to `i`. -/
def staleReuse : Stmt :=
  .seq (.assign iLoc xIn) (.seq (.assign iLoc iNext) (.ret iNext))
/-- The condition of the loop was already evaluated before it. -/
def condReuse : Stmt :=
  .seq (.assign iLoc (.cst 1 0)) (.seq (.expr iCond)
    (.seq (.loop .skip iCond (.assign iLoc iNext)) (.ret (.var iLoc))))
/-- A local variable assigned in both branches and returned after them. -/
def branchLocal : Stmt :=
  .seq (.ite (.bin { id := 30 } 2 xIn (.cst 31 7)) (.assign iLoc (.cst 32 1))
    (.assign iLoc (.cst 33 2))) (.ret (.var iLoc))
/-- In a branch, an operation has the name of the argument as name hint. -/
def argHint : Stmt :=
  .seq (.ite (.bin { id := 30 } 2 xIn (.cst 31 7))
    (.ret (.bin { id := 34, tag := some ['n'] } 0 xIn (.cst 35 1))) .skip) (.ret xIn)

/-- **C75 fails** when an operation that first appears in a loop body is used after the loop: the C
program reads the variable of the loop body after its block was closed, or, as here, another variable
to which the same name was given since.  With `n = 5` the description returns `i + 1 = 6` and the C
function `n * n = 25`. -/
theorem C75_reuse_after_loop_wrong :
    NoClash [['n']] reuseAfterLoop ∧ InputsIn [['n']] reuseAfterLoop ∧
    exec intOps 20 reuseAfterLoop (initial [(['n'], 5)]) = .ret 6 ∧
    (genFun [] reuseAfterLoop).call intOps 20 [(['n'], 5)] = .ret 25 := by
  exact ⟨noClash_of_prefix (by decide +kernel), inputsIn_of_all (by decide +kernel), rfl,
    by decide +kernel⟩

/-- **C75 fails** when an operation is used before and after an assignment to a variable it reads: the
value of the first use is used again.  For every argument `n` the description returns `n + 2` and the
C function `n + 1`. -/
theorem C75_stale_value_wrong (n : ℤ) :
    NoClash [['n']] staleReuse ∧ InputsIn [['n']] staleReuse ∧
    exec intOps 0 staleReuse (initial [(['n'], n)]) = .ret (n + 1 + 1) ∧
    (genFun [] staleReuse).call intOps 0 [(['n'], n)] = .ret (n + 1) :=
  ⟨noClash_of_prefix (by decide +kernel), inputsIn_of_all (by decide +kernel), rfl, rfl⟩

/-- **C75 fails** when the condition of a loop was already evaluated before the loop: the C program
tests the value it had then, for ever. -/
theorem C75_loop_condition_wrong :
    NoClash [['n']] condReuse ∧ InputsIn [['n']] condReuse ∧
    exec intOps 3 condReuse (initial [(['n'], 3)]) = .ret 3 ∧
    ∀ fuel, (genFun [] condReuse).call intOps fuel [(['n'], 3)] = .out := by
  refine ⟨noClash_of_prefix (by decide +kernel), inputsIn_of_all (by decide +kernel), rfl,
    fun fuel => ?_⟩
  have key : ∀ (m : ℕ) (a : ℤ), iter (fun ρ => (evalC intOps ρ (.var ['t', 'm', 'p'])).map intOps.truth)
      (fun ρ => leave (execC intOps fuel (.seq (.seq (.seq .skip .skip) (.assign ['t', 'm', 'p', '0']
        (.bin 0 (.var ['i']) (.cst 1)))) (.assign ['i'] (.var ['t', 'm', 'p', '0'])))
        (enter [['t', 'm', 'p', '0']] ρ))) m
      [[(['t', 'm', 'p'], some 1), (['i'], some a)], [(['n'], some 3)]] = .out := by
    intro m
    induction m with
    | zero => intro a; rfl
    | succ m ih => intro a; exact ih (a + 1)
  have hc : genFun [] condReuse = ⟨[['t', 'm', 'p'], ['i']],
      .seq (.seq .skip (.assign ['i'] (.cst 0)))
        (.seq (.seq (.seq .skip .skip) (.assign ['t', 'm', 'p'] (.bin 2 (.var ['i']) (.var ['n']))))
          (.seq (.seq (.seq .skip .skip) (.loop (.var ['t', 'm', 'p']) [['t', 'm', 'p', '0']]
            (.seq (.seq (.seq .skip .skip) (.assign ['t', 'm', 'p', '0']
              (.bin 0 (.var ['i']) (.cst 1)))) (.assign ['i'] (.var ['t', 'm', 'p', '0'])))))
            (.seq .skip (.ret (.var ['i'])))))⟩ := by decide +kernel
  rw [hc]
  have h : ∀ r : Res (Env ℤ) ℤ, r = .out → leave (r.andThen (execC intOps fuel
      (.seq .skip (.ret (.var ['i']))))) = .out := by rintro r rfl; rfl
  exact h _ (key fuel 0)

/-- **C75 fails** when a local variable first appears in a branch of a conditional: it is declared in
the block of that branch only, and what follows reads another variable, never initialised. -/
theorem C75_branch_local_wrong (n : ℤ) :
    NoClash [['n']] branchLocal ∧ InputsIn [['n']] branchLocal ∧
    exec intOps 0 branchLocal (initial [(['n'], n)]) = .ret (if n < 7 then 1 else 2) ∧
    (genFun [] branchLocal).call intOps 0 [(['n'], n)] = .err := by
  refine ⟨noClash_of_prefix (by decide +kernel), inputsIn_of_all (by decide +kernel), ?_⟩
  have hx : exec intOps 0 branchLocal (initial [(['n'], n)]) =
      (if intOps.truth (if n < 7 then 1 else 0) then (.ret 1 : Res (Store ℤ) ℤ) else .ret 2) := by
    by_cases h : n < 7
    · simp only [h, if_true]
      show exec _ _ _ _ = _
      simp [branchLocal, exec, eval, initial, xIn, intOps, h, Res.andThen, iLoc]
    · simp [branchLocal, exec, eval, initial, xIn, intOps, h, Res.andThen, iLoc]
  have hc : genFun [] branchLocal = ⟨[['i'], ['t', 'm', 'p']],
      .seq (.seq (.seq (.seq .skip .skip) (.assign ['t', 'm', 'p'] (.bin 2 (.var ['n']) (.cst 7))))
        (.ite (.var ['t', 'm', 'p']) [['i']] (.seq .skip (.assign ['i'] (.cst 1)))
          [['i']] (.seq .skip (.assign ['i'] (.cst 2)))))
        (.seq .skip (.ret (.var ['i'])))⟩ := by decide +kernel
  rw [hx, hc]
  by_cases h : n < 7
  · refine ⟨by simp [h, intOps], ?_⟩
    simp [CFun.call, execC, enter, evalC, look, set, setF, intOps, h, Res.andThen, leave,
      List.lookup]
  · refine ⟨by simp [h, intOps], ?_⟩
    simp [CFun.call, execC, enter, evalC, look, set, setF, intOps, h, Res.andThen, leave,
      List.lookup]

/-- **C75 fails** when the name hint of an operation is the name of an argument: arguments are in no
symbol table, so inside a nested block the hint is taken as is and hides the argument. -/
theorem C75_argument_name_wrong (n : ℤ) (h : n < 7) :
    Pure argHint ∧ InputsIn [['n']] argHint ∧ exec intOps 0 argHint (initial [(['n'], n)]) = .ret (n + 1) ∧
    (genFun [] argHint).call intOps 0 [(['n'], n)] = .err := by
  refine ⟨⟨by simp [argHint, Pure.go], by decide +kernel⟩, inputsIn_of_all (by decide +kernel), ?_, ?_⟩
  · simp [argHint, exec, eval, initial, xIn, intOps, h, Res.andThen]
  · have hc : genFun [] argHint = ⟨[['t', 'm', 'p']],
        .seq (.seq (.seq (.seq .skip .skip) (.assign ['t', 'm', 'p'] (.bin 2 (.var ['n']) (.cst 7))))
          (.ite (.var ['t', 'm', 'p']) [['n']]
            (.seq (.seq (.seq .skip .skip) (.assign ['n'] (.bin 0 (.var ['n']) (.cst 1))))
              (.ret (.var ['n']))) [] .skip))
          (.seq .skip (.ret (.var ['n'])))⟩ := by decide +kernel
    rw [hc]
    simp [CFun.call, execC, enter, evalC, look, set, setF, intOps, h, Res.andThen, leave,
      List.lookup]

end Examples

end Verif.CGen
