import Mathlib.Algebra.Order.Field.Basic

/-!
Model of the temperatures of a simulation: `constants.T` (constants.py:32), `ahkab.set_temperature` (ahkab.py:798-803),
`Celsius2Kelvin` (utilities.py:381-384), the constructor of diodes (diode.py:84-91) with `diode.set_temperature` (diode.py:109-115),
the constructors of transistor models (ekv.py:433, mosq.py:501) with `set_device_temperature` (ekv.py:444-453, mosq.py:515-527, the
temperature only, see C47 for the parameters), and the temperature written down with the results (results.py:150, 455).

Simplifications: devices are numbered in the order in which they are made; the model of a diode takes over the temperature of the
diode that is evaluated (diode.py:354, 399), which is left out.
-/

namespace Verif.Temp

variable {K : Type} [Field K]

/-- a diode or a model of transistors, with the temperature it works at -/
structure Dev (K : Type) where
  diode : Bool
  T : K

/-- `constants.T`, the devices, and the temperatures noted with the results, the first ones first -/
structure World (K : Type) where
  T : K
  devs : List (Dev K)
  noted : List K

def start : World K := ⟨300, [], []⟩

def kelvin (c : K) : K := c + 27315 / 100

/-- what a script does; temperatures in Celsius are only those of `set_temperature` -/
inductive Act (K : Type) where
  /-- `ahkab.set_temperature` -/
  | simulate (c : K)
  /-- the constructor of a diode, with the argument `T` -/
  | diode (T : Option K)
  /-- the constructor of a model of transistors -/
  | model
  /-- `set_temperature` of a diode or `set_device_temperature` of a model -/
  | adjust (i : Nat) (T : K)
  /-- an analysis, which makes a set of results -/
  | analysis

def step (w : World K) : Act K → World K
  | .simulate c => { w with T := kelvin c }
  | .diode (some T) => { w with devs := w.devs ++ [⟨true, T⟩] }
  | .diode none => { w with devs := w.devs ++ [⟨true, w.T⟩] }
  | .model => { w with devs := w.devs ++ [⟨false, w.T⟩] }
  | .adjust i T => { w with devs := w.devs.modify i fun d => { d with T := T } }
  | .analysis => { w with noted := w.noted ++ [w.T] }

def run (h : List (Act K)) : World K := h.foldl step start

end Verif.Temp
