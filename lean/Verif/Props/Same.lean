import Verif.Lemmas.Norm

/-! # Specification: two trees denote the same document -/

namespace Srl.Props

/-- Same value; integers are compared numerically. -/
def SameVal : Val → Val → Prop
  | .int _ a, .int _ b => a = b
  | .bool a, .bool b => a = b
  | .fp32 a, .fp32 b => a = b
  | .fp64 a, .fp64 b => a = b
  | .null, .null => True
  | .str a, .str b => a = b
  | .bin a, .bin b => a = b
  | _, _ => False

/-- Same fields in the same order, values being compared by `R`; the names count if `named`. -/
def SameVals (R : Val → Val → Prop) (named : Bool) : List (Bytes × Val) → List (Bytes × Val) → Prop
  | [], [] => True
  | (n, v) :: vs, (n', v') :: vs' => (named = true → n = n') ∧ R v v' ∧ SameVals R named vs vs'
  | _, _ => False

mutual
/-- Same kind of scope, same values (as compared by `R`) and same nodes in the same order; in
objects the names are the same. -/
def SameNodeBy (R : Val → Val → Prop) : Node → Node → Prop
  | .mk t vs ns, .mk t' vs' ns' =>
    t = t' ∧ SameVals R (t == .object) vs vs' ∧ SameNodesBy R (t == .object) ns ns'
def SameNodesBy (R : Val → Val → Prop) (named : Bool) :
    List (Bytes × Node) → List (Bytes × Node) → Prop
  | [], [] => True
  | (n, x) :: ns, (n', x') :: ns' =>
    (named = true → n = n') ∧ SameNodeBy R x x' ∧ SameNodesBy R named ns ns'
  | _, _ => False
end

/-- Same document. -/
def SameNode (a b : Node) : Prop := SameNodeBy SameVal a b

theorem sameVals_norm (R : Val → Val → Prop) (nv : Val → Val) (hR : ∀ v, R v (nv v)) (b : Bool)
    (vs : List (Bytes × Val)) :
    SameVals R b vs (vs.map (fun p => (if b then p.1 else [], nv p.2))) := by
  induction vs with
  | nil => simp [SameVals]
  | cons p vs ih =>
    obtain ⟨n, v⟩ := p
    simp only [List.map_cons, SameVals]
    exact ⟨fun h => by simp [h], hR v, ih⟩

mutual
theorem sameNode_norm (R : Val → Val → Prop) (nv : Val → Val) (hR : ∀ v, R v (nv v)) :
    ∀ n : Node, SameNodeBy R n (Norm.node nv n)
  | .mk t vs ns => by
    simp only [Norm.node, SameNodeBy]
    exact ⟨trivial, sameVals_norm R nv hR _ vs, sameNodes_norm R nv hR _ ns⟩
theorem sameNodes_norm (R : Val → Val → Prop) (nv : Val → Val) (hR : ∀ v, R v (nv v)) :
    ∀ (b : Bool) (ns : List (Bytes × Node)), SameNodesBy R b ns (Norm.nodes nv b ns)
  | _, [] => by simp [Norm.nodes, SameNodesBy]
  | b, (name, n) :: ns => by
    simp only [Norm.nodes, SameNodesBy]
    exact ⟨fun h => by simp [h], sameNode_norm R nv hR n, sameNodes_norm R nv hR b ns⟩
end

theorem SameVal.trans {a b c : Val} (h1 : SameVal a b) (h2 : SameVal b c) : SameVal a c := by
  cases a <;> cases b <;> simp only [SameVal] at h1 <;> cases c <;> simp_all [SameVal]

theorem SameVals.trans {b : Bool} : ∀ {x y z : List (Bytes × Val)},
    SameVals SameVal b x y → SameVals SameVal b y z → SameVals SameVal b x z
  | [], [], [], _, _ => trivial
  | _ :: _, _ :: _, _ :: _, ⟨h1, h2, h3⟩, ⟨k1, k2, k3⟩ =>
    ⟨fun h => (h1 h).trans (k1 h), h2.trans k2, h3.trans k3⟩
  | [], _ :: _, _, h, _ => h.elim
  | _ :: _, [], _, h, _ => h.elim
  | [], [], _ :: _, _, h => h.elim
  | _ :: _, _ :: _, [], _, h => h.elim

mutual
theorem SameNode.trans' : ∀ (x y z : Node),
    SameNodeBy SameVal x y → SameNodeBy SameVal y z → SameNodeBy SameVal x z
  | .mk t vs ns, .mk t' vs' ns', .mk t'' vs'' ns'', h, k => by
    simp only [SameNodeBy] at h k ⊢
    obtain ⟨rfl, h2, h3⟩ := h
    obtain ⟨rfl, k2, k3⟩ := k
    exact ⟨rfl, h2.trans k2, SameNodes.trans' _ ns ns' ns'' h3 k3⟩
theorem SameNodes.trans' : ∀ (b : Bool) (x y z : List (Bytes × Node)),
    SameNodesBy SameVal b x y → SameNodesBy SameVal b y z → SameNodesBy SameVal b x z
  | _, [], [], [], _, _ => by simp [SameNodesBy]
  | b, (_, x) :: xs, (_, y) :: ys, (_, z) :: zs, h, k => by
    simp only [SameNodesBy] at h k ⊢
    exact ⟨fun hb => (h.1 hb).trans (k.1 hb), SameNode.trans' x y z h.2.1 k.2.1,
      SameNodes.trans' b xs ys zs h.2.2 k.2.2⟩
  | _, [], _ :: _, _, h, _ => by simp [SameNodesBy] at h
  | _, _ :: _, [], _, h, _ => by simp [SameNodesBy] at h
  | _, [], [], _ :: _, _, h => by simp [SameNodesBy] at h
  | _, _ :: _, _ :: _, [], _, h => by simp [SameNodesBy] at h
end

theorem SameNode.trans {x y z : Node} (h1 : SameNode x y) (h2 : SameNode y z) : SameNode x z :=
  SameNode.trans' x y z h1 h2

end Srl.Props
