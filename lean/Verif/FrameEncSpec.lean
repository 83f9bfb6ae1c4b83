import Verif.CbcSpec

/-!
# Players of SAMPLE-AES: audio

Apple, MPEG-2 Stream Encryption Format for HTTP Live Streaming: 16 bytes are clear, then all full blocks are encrypted with the IV at the start of each frame, and what remains is clear. `D` is the
block cipher backwards. Of the model nothing is used.
-/

namespace Verif.FrameEncSpec

open Verif.CbcSpec

def play (D : List UInt8 → List UInt8) (iv o : List UInt8) : List UInt8 :=
  o.take 16 ++ (dec D ((o.length - 16) / 16) iv (o.drop 16) ++ o.drop (16 + 16 * ((o.length - 16) / 16)))

end Verif.FrameEncSpec
