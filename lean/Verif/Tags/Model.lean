import Verif.Tags.Spec

/-!
# Model of `metalibm_core/opt/p_tag_node.py`
-/

namespace Verif.Tags

/-- State of `Pass_TagNode`: the tags of the nodes, `tag_id`
(p_tag_node.py:47) and `memoization_map`. -/
structure St where
  tag : ℕ → Option Name
  count : ℕ → ℕ
  memo : ℕ → Bool

/-- `"{}_{}".format(name, id)` (p_tag_node.py:52). -/
def format (name : Name) (k : ℕ) : Name := name ++ '_' :: Nat.toDigits 10 k

/-- `optree.set_tag(self.get_new_tag(optree))` (p_tag_node.py:50-53, 65).
`name c` is the attribute `name` of the class `c`. -/
def newTag (G : Graph) (name : ℕ → Name) (s : St) (n : ℕ) : St :=
  let k := s.count (G.cls n) + 1
  { s with
    count := fun c => if c = G.cls n then k else s.count c
    tag := fun m => if m = n then some (format (name (G.cls n)) k) else s.tag m }

/-- `for inp in optree.inputs: self.tag_node(inp, ...)` (p_tag_node.py:60-62). -/
def each (f : ℕ → St → Option St) : List ℕ → St → Option St
  | [], s => some s
  | a :: l, s =>
    match f a s with
    | none => none
    | some s' => each f l s'

/-- `tag_node` (p_tag_node.py:55-69).  The first argument bounds the depth of
the recursion, `none` means that the bound is reached. -/
def tagNode (G : Graph) (name : ℕ → Name) : ℕ → ℕ → St → Option St
  | 0, _, _ => none
  | fuel + 1, n, s =>
    if s.memo n then some s
    else
      match (if G.leaf n then some s else each (tagNode G name fuel) (G.inputs n) s) with
      | none => none
      | some s1 =>
        let s2 := if s1.tag n = none then newTag G name s1 n else s1
        some { s2 with memo := fun m => if m = n then true else s2.memo m }

/-- The pass on the functions of a group (p_tag_node.py:71-72,
metalibm_core/core/passes.py:367-380): a new `memoization_map` for each
function, the same counters. -/
def tagFunctions (G : Graph) (name : ℕ → Name) (fuel : ℕ) : List ℕ → St → Option St
  | [], s => some s
  | r :: l, s =>
    match tagNode G name fuel r { s with memo := fun _ => false } with
    | none => none
    | some s' => tagFunctions G name fuel l s'

/-- State of `Pass_DebugTaggedNode`: the debug attribute of the nodes and
`memoization_map`. -/
structure DSt where
  debug : ℕ → Bool
  memo : ℕ → Bool

/-- The loop on the operands in `enable_debug` (p_tag_node.py:96-98). -/
def eachD (f : ℕ → DSt → Option DSt) : List ℕ → DSt → Option DSt
  | [], s => some s
  | a :: l, s =>
    match f a s with
    | none => none
    | some s' => eachD f l s'

/-- `enable_debug` (p_tag_node.py:89-108); `white` is `tag_list`, `keep` is
`default_tags`.  Simplification: the debug attribute is on or off. -/
def enableDebug (G : Graph) (tag : ℕ → Option Name) (white : List Name) (keep : Bool) :
    ℕ → ℕ → DSt → Option DSt
  | 0, _, _ => none
  | fuel + 1, n, s =>
    if s.memo n then some s
    else
      let s0 : DSt := { s with memo := fun m => if m = n then true else s.memo m }
      match (if G.leaf n then some s0
             else eachD (enableDebug G tag white keep fuel) (G.inputs n) s0) with
      | none => none
      | some s1 =>
        if (tag n).any (fun x => x ∈ white) then
          some { s1 with debug := fun m => if m = n then true else s1.debug m }
        else if keep then some s1
        else some { s1 with debug := fun m => if m = n then false else s1.debug m }

end Verif.Tags
