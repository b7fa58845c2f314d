import Mathlib.Data.List.Basic

/-!
# Python dictionaries, and `zhusuan/utils.py`: `merge_dicts` (lines 220–228)

A dictionary is the list of its items in insertion order.  `set` (Python `d[k] = v`) replaces the
value in place when the key exists and appends otherwise.
-/

namespace ZhuSuan

/-- A Python dictionary: its items in insertion order (used at zhusuan/utils.py 220–228). -/
abbrev Dict (K V : Type) := List (K × V)

namespace Dict

variable {K V : Type} [DecidableEq K]

/-- `d.get(k)` / `k in d`.  (Python; used at framework/bn.py 343–345) -/
def get? : Dict K V → K → Option V
  | [], _ => none
  | (k', v) :: d, k => if k' = k then some v else get? d k

/-- `d[k] = v`.  (Python; used at framework/bn.py 370, 384) -/
def set : Dict K V → K → V → Dict K V
  | [], k, v => [(k, v)]
  | (k', v') :: d, k, v => if k' = k then (k', v) :: d else (k', v') :: set d k v

/-- `d.update(e)`.  (Python; used at zhusuan/utils.py 226–227) -/
def update (d e : Dict K V) : Dict K V := e.foldl (fun d kv => d.set kv.1 kv.2) d

/-- The keys, in insertion order.  (Python; used at hmc.py 419) -/
def keys (d : Dict K V) : List K := d.map Prod.fst

/-- What every Python dictionary satisfies: each key occurs once.  (Python; every dictionary of zhusuan/utils.py
220–228) -/
def WF (d : Dict K V) : Prop := d.keys.Nodup

/-- `merge_dicts(*dict_args)`, utils.py lines 220–228: start from `{}` and `update` with each. -/
def mergeDicts (ds : List (Dict K V)) : Dict K V := ds.foldl update []

end Dict
end ZhuSuan
