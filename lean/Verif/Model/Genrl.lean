import Verif.Model.Proxy

/-!
# Generative models in front of the policy

`emote/algorithms/genrl/proxies.py` and `load_state_dict` of the wrappers in `emote/algorithms/genrl/wrappers.py`. The encoder is a
function of the actions and the observation (it is in evaluation: only its mean is used, `wrappers.py` 92-93). Conversions between
numpy and torch are left out.
-/

namespace Verif

namespace Genrl

variable {V : Type u} {M : Type v} {T : Type w}

/-- Constructor arguments of `MemoryProxyWithEncoder`, `proxies.py` 13-25; `isEmpty` is `np.size(actions) == 0`. -/
structure EncCfg (V : Type u) where
  encoder : V → V → V
  isEmpty : V → Bool
  inputKey : String
  actionKey : String

/-- The body of the loop, `proxies.py` 33-43: the new response of one agent -/
def encode (e : EncCfg V) (observations : Dict Int (Obs V M)) (ar : Int × Response V) : Except Err (Response V) :=
  match ar.2.listData.get? e.actionKey with
  | none => .error .keyError
  | some actions =>
    if e.isEmpty actions then .ok ar.2
    else match observations.get? ar.1 with
      | none => .error .keyError
      | some o => match o.arrays.get? e.inputKey with
        | none => .error .keyError
        | some obs => .ok ⟨[(e.actionKey, e.encoder actions obs)], []⟩

/-- The loop over the responses, `proxies.py` 32-43, with `updated_responses` -/
def encodeAll (e : EncCfg V) (observations : Dict Int (Obs V M)) :
    List (Int × Response V) → Dict Int (Response V) → Except Err (Dict Int (Response V))
  | [], updated => .ok updated
  | ar :: rest, updated =>
    match encode e observations ar with
    | .error err => .error err
    | .ok r => encodeAll e observations rest (updated.set ar.1 r)

/-- `MemoryProxyWithEncoder.add`, `proxies.py` 27-44 -/
def add (e : EncCfg V) (cfg : ProxyCfg V) (mem : Int → Episode V → T → Res T Unit) (observations : Dict Int (Obs V M))
    (responses : Dict Int (Response V)) (p : Proxy V T) : Res (Proxy V T) Unit :=
  match encodeAll e observations responses [] with
  | .error err => (p, .error err)
  | .ok updated => Proxy.add cfg mem observations updated p

/-! ### Loading a state -/

variable {S : Type w} [DecidableEq S]

/-- What torch's `Module.load_state_dict` does with the parameters: each one with an entry of the same shape is overwritten; wrong
shapes, and with `strict` missing and unexpected names, raise at the end. -/
def torchLoad (shape : V → S) (strict : Bool) (state params : Dict String V) : Res (Dict String V) Unit :=
  let new := params.map fun kv => (kv.1, match state.get? kv.1 with
    | some v => if shape v = shape kv.2 then v else kv.2
    | none => kv.2)
  let fits := params.all fun kv => match state.get? kv.1 with
    | some v => decide (shape v = shape kv.2)
    | none => !strict
  (new, if fits && (!strict || state.all fun kv => params.contains kv.1) then .ok () else .error .runtimeError)

/-- `DecoderWrapper.load_state_dict`, `wrappers.py` 51-56, and the same for the encoder, 95-100. `strict` is not used. -/
def load (shape : V → S) (_strict : Bool) (state params : Dict String V) : Res (Dict String V) Unit :=
  let new := state.filter fun kv => params.contains kv.1
  if new.isEmpty then (params, .error .assertionError)
  else torchLoad shape true (params.update new) params

end Genrl

end Verif
