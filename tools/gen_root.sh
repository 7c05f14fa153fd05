#!/bin/sh
# regenerates lean/Verif.lean: imports every property module
cd "$(dirname "$0")/../lean" && for f in Verif/Props/*.lean; do echo "import $(echo ${f%.lean} | tr / .)"; done > Verif.lean
