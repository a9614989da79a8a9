import Verif.Prelude
import Verif.Model.Mesh

/-!
# Model of scene descriptions and their playback

`softy/src/scene.rs`. Positions are values of an arbitrary type `P`; frames are natural numbers
(`u64`, whose overflow at the last frame is not modelled). Serialization is not modelled.
-/

namespace Softy.Scene

/-! ## Attributes -/

/-- Element types of mesh attributes. -/
inductive Elem where
  | i8 | i16 | i32 | i64 | u8 | u16 | u32 | u64 | usize | f32 | f64 | f32x2 | f32x3 | f64x3 | other
deriving DecidableEq

/-- A directly stored attribute of the input mesh: element type, and values coded as integers. -/
structure Attr where
  ty : Elem
  vals : List ℤ
deriving DecidableEq

/-- `scene.rs:74-94`, `Attribute::from_attrib_data`: `None` for an unsupported element type. -/
def fromAttribData (a : Attr) : Option Attr :=
  match a.ty with
  | .f64 | .f32 | .i32 | .i8 | .usize | .f32x3 | .f64x3 | .f32x2 => some a
  | _ => none

/-- Attributes are found by name (`HashMap`). -/
abbrev Attrs := List (String × Attr)

/-- `attributes.get(name)`. -/
def getAttr (as : Attrs) (name : String) : Option Attr :=
  (as.find? fun a => a.1 == name).map Prod.snd

/-- `scene.rs:235-258`: the attributes kept by `SceneData::new`. -/
def keepAttrs (as : Attrs) : Attrs :=
  as.filterMap fun (name, a) => (fromAttribData a).map fun a => (name, a)

/-! ## Compression of animated positions -/

variable {P : Type}

/-- `MeshTopo` (`scene.rs:132-141`); cells and attributes of cells play no role in the
animation. -/
structure Topo where
  vertexAttrs : Attrs
  numVertices : ℕ

/-- `positions.into_iter().zip(x.iter()).filter_map(..)` in `scene.rs:155-169`. -/
def compress : List P → List ℤ → List P
  | p :: ps, x :: xs => if x ≠ 0 then p :: compress ps xs else compress ps xs
  | _, _ => []

/-- `scene.rs:148-173`, `filter_animated`. -/
def filterAnimated (t : Topo) (frame : ℕ) (positions : List P) : List P :=
  if frame = 0 then positions
  else
    match getAttr t.vertexAttrs "animated" with
    | some ⟨.i32, x⟩ => compress positions x
    | some ⟨.i8, x⟩ => compress positions x
    | some ⟨.usize, x⟩ => compress positions x
    | _ => positions

/-- `out.iter_mut().zip(x.iter()).filter_map(..).zip(anim.iter()).for_each(..)` in
`scene.rs:184-201`. -/
def expand : List P → List ℤ → List P → List P
  | o :: os, x :: xs, as =>
    if x ≠ 0 then
      match as with
      | a :: as => a :: expand os xs as
      | [] => o :: os
    else o :: expand os xs as
  | os, _, _ => os

/-- `out.iter_mut().zip(anim.iter()).for_each(..)` in `scene.rs:202-217`. -/
def overwrite : List P → List P → List P
  | _ :: os, a :: as => a :: overwrite os as
  | os, _ => os

/-- `scene.rs:175-218`, `update_positions_with_animated`: the new contents of `out`. -/
def updatePositions (t : Topo) (frame : ℕ) (anim out : List P) : List P :=
  if frame ≠ 0 then
    match getAttr t.vertexAttrs "animated" with
    | some ⟨.i32, x⟩ => expand out x anim
    | some ⟨.i8, x⟩ => expand out x anim
    | some ⟨.usize, x⟩ => expand out x anim
    | _ => overwrite out anim
  else overwrite out anim

/-! ## Keyframes -/

/-- `scene.rs:221-225`, `KeyframedVertexPositions`. -/
structure Keyframe (P : Type) where
  frame : ℕ
  positions : List P

/-- `scene.rs:228-241`, `SceneData`. -/
structure SceneData (P : Type) where
  topo : Topo
  animation : List (Keyframe P)

/-- `scene.rs:247-290`, `SceneData::new`. -/
def SceneData.new (attrs : Attrs) (positions : List P) : SceneData P :=
  { topo := ⟨keepAttrs attrs, positions.length⟩
    animation := [⟨0, positions⟩] }

/-- A panic. -/
inductive Panic where
  | panic
deriving DecidableEq

/-- The new keyframe stored for `frame`. -/
def store (t : Topo) (frame : ℕ) (positions : List P) : Keyframe P :=
  ⟨frame, filterAnimated t frame positions⟩

/-- `frames.windows(2).all(|ts| ts[0] <= ts[1])`. -/
def monotone : List ℕ → Bool
  | a :: b :: l => decide (a ≤ b) && monotone (b :: l)
  | _ => true

/-- `scene.rs:306-345`, `set_keyframes`. -/
def SceneData.setKeyframes (s : SceneData P) (frames : List ℕ) (positions : List (List P)) :
    Except Panic (SceneData P) :=
  if frames.length = positions.length ∧ frames ≠ [] ∧ monotone frames = true ∧
      ∀ p ∈ positions, p.length = s.topo.numVertices then
    let kept := if frames.head? = some 0 then [] else s.animation.take 1
    .ok { s with animation := kept ++ List.zipWith (store s.topo) frames positions }
  else .error .panic

/-- The result of a binary search: `Ok(pos)` or `Err(pos)`. -/
inductive Found where
  | hit (pos : ℕ)
  | gap (pos : ℕ)
deriving DecidableEq

/-- The loop of `binary_search_by_key` in the standard library, between `left` and `right`. -/
def binarySearch (keys : ℕ → ℕ) (key : ℕ) (left right : ℕ) : Found :=
  if left < right then
    if keys (left + (right - left) / 2) < key then
      binarySearch keys key (left + (right - left) / 2 + 1) right
    else if key < keys (left + (right - left) / 2) then
      binarySearch keys key left (left + (right - left) / 2)
    else .hit (left + (right - left) / 2)
  else .gap left
termination_by right - left
decreasing_by all_goals omega

/-- The frame of entry `i`. -/
def frameAt (anim : List (Keyframe P)) (i : ℕ) : ℕ := (anim[i]?.map Keyframe.frame).getD 0

/-- `scene.rs:352-390`, `add_keyframe`. -/
def SceneData.addKeyframe (s : SceneData P) (frame : ℕ) (positions : List P) :
    Except Panic (SceneData P) :=
  match s.animation.getLast? with
  | none => .error .panic
  | some last =>
    if positions.length ≠ s.topo.numVertices then .error .panic
    else if last.frame < frame then
      .ok { s with animation := s.animation ++ [store s.topo frame positions] }
    else if frame = last.frame then
      .ok { s with animation := s.animation.dropLast ++
        [{ last with positions := filterAnimated s.topo frame positions }] }
    else
      match binarySearch (frameAt s.animation) frame 0 s.animation.length with
      | .hit pos => .ok { s with animation := s.animation.modify pos fun k =>
          { k with positions := filterAnimated s.topo frame positions } }
      | .gap pos =>
        .ok { s with animation := s.animation.insertIdx pos (store s.topo frame positions) }

/-! ## Playback -/

/-- What the solver and the user's callback do during playback: `stepOk f` tells whether the
simulation of step `f` succeeds, `goOn f` whether the callback wants to continue after step `f`,
`updateOk f` whether the solver accepts the positions given after step `f`. -/
structure Env where
  stepOk : ℕ → Bool
  goOn : ℕ → Bool
  updateOk : ℕ → Bool

/-- How playback ends. -/
inductive Ending where
  | done
  | interrupted
  | stepError
  | updateError
deriving DecidableEq

/-- `scene.rs:732-768`: the loop of `run_with` from step `frame` on, for `n` more steps.
`target` is what the solver was last given for the prescribed positions, `index` is
`keyframe_index`, `anim` is `animated_positions`. The result lists, for every simulated step,
the positions prescribed in it. -/
def playLoop (env : Env) (s : SceneData P) :
    (n frame index : ℕ) → (anim target : List P) → Ending × List (ℕ × List P)
  | 0, _, _, _, _ => (.done, [])
  | n + 1, frame, index, anim, target =>
    if env.stepOk frame then
      if env.goOn frame then
        match s.animation[index]? with
        | some k =>
          if k.frame ≤ frame + 1 then
            let anim' := updatePositions s.topo k.frame k.positions anim
            if env.updateOk frame then
              let r := playLoop env s n (frame + 1) (index + 1) anim' anim'
              (r.1, (frame, target) :: r.2)
            else (.updateError, [(frame, target)])
          else
            let r := playLoop env s n (frame + 1) index anim target
            (r.1, (frame, target) :: r.2)
        | none =>
          let r := playLoop env s n (frame + 1) index anim target
          (r.1, (frame, target) :: r.2)
      else (.interrupted, [(frame, target)])
    else (.stepError, [(frame, target)])

/-- `scene.rs:699-771`, `run_with`, after the solver is built from the first keyframe. -/
def run (env : Env) (s : SceneData P) (steps : ℕ) : Except Panic (Ending × List (ℕ × List P)) :=
  match s.animation.head? with
  | none => .error .panic
  | some k =>
    if env.goOn 0 then .ok (playLoop env s steps 1 1 k.positions k.positions)
    else .ok (.interrupted, [])

end Softy.Scene
